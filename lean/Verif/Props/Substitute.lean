import Verif.Model.Substitute
import Mathlib.Data.List.Forall2

/-!
# C156: substituting a parameter in an input file
-/

namespace AMPE.Substitute.Props

/-! ## Specification -/

/-- A word: not empty, no white space. -/
def IsWord (w : List Char) : Prop := w ≠ [] ∧ ∀ c ∈ w, isBlank c = false

/-- The line sets the parameter: its words are the name, a second word (`=`), the old value and whatever follows. -/
def Sets (name : List Char) (line : List Char) (eq old : List Char) (rest : List (List Char)) : Prop :=
  words line = name :: eq :: old :: rest

/-- What a user wants of one line: where the parameter is set the third word is the new value, everything else is as it was. -/
def Wanted (name val before after : List Char) : Prop :=
  (∀ eq old rest, Sets name before eq old rest → words after = name :: eq :: val :: rest) ∧
    ((∀ eq old rest, ¬ Sets name before eq old rest) → after = before)

/-! ## Lemmas -/

theorem words_word {w : List Char} (h : IsWord w) : words w = [w] := by
  unfold words
  rw [List.splitOnP_eq_singleton h.2]
  cases w with
  | nil => exact absurd rfl h.1
  | cons a l => rfl

theorem words_cons {w : List Char} (h : IsWord w) (c : Char) (hc : isBlank c = true) (s : List Char) : words (w ++ c :: s) = w :: words s := by
  unfold words
  rw [List.splitOnP_append_cons_of_forall_mem h.2 c hc, List.filter_cons]
  cases w with
  | nil => exact absurd rfl h.1
  | cons a l => rfl

theorem words_blank (c : Char) (hc : isBlank c = true) (s : List Char) : words (c :: s) = words s := by
  have := List.splitOnP_append_cons_of_forall_mem (p := isBlank) (xs := []) (by simp) c hc s
  unfold words
  rw [List.nil_append] at this
  rw [this, List.filter_cons]
  rfl

/-- What `split` gives are words. -/
theorem mem_words {s w : List Char} (h : w ∈ words s) : IsWord w := by
  unfold words at h
  rw [List.mem_filter] at h
  refine ⟨by rintro rfl; simp at h, ?_⟩
  have key : ∀ (s : List Char) (w : List Char), w ∈ s.splitOnP isBlank → ∀ c ∈ w, isBlank c = false := by
    intro s
    induction s with
    | nil => intro w hw c hc; simp at hw; subst hw; simp at hc
    | cons a s ih =>
      intro w hw c hc
      rw [List.splitOnP_cons_eq_if_modifyHead] at hw
      by_cases ha : isBlank a = true
      · rw [if_pos ha] at hw
        rcases List.mem_cons.1 hw with rfl | hw
        · simp at hc
        · exact ih w hw c hc
      · rw [if_neg ha] at hw
        cases hs : s.splitOnP isBlank with
        | nil => exact absurd hs (List.splitOnP_ne_nil _ _)
        | cons b bs =>
          rw [hs] at hw ih
          simp only [List.modifyHead_cons] at hw
          rcases List.mem_cons.1 hw with rfl | hw
          · rcases List.mem_cons.1 hc with rfl | hc
            · simpa using ha
            · exact ih b (by simp) c hc
          · exact ih w (by simp [hw]) c hc
  exact key s w h.1

/-- Words joined with a blank are found again. -/
theorem words_join (ws : List (List Char)) (h : ∀ w ∈ ws, IsWord w) (tail : List Char) (ht : words tail = []) (hb : ∀ c s, tail = c :: s → isBlank c = true) :
    words (join [' '] ws ++ tail) = ws := by
  induction ws with
  | nil => simpa [join] using ht
  | cons w ws ih =>
    cases ws with
    | nil =>
      cases tail with
      | nil => simpa [join] using words_word (h w (by simp))
      | cons c s =>
        have hc := hb c s rfl
        rw [join, words_cons (h w (by simp)) c hc, ← words_blank c hc s, ht]
    | cons v vs =>
      rw [join, List.append_assoc, List.append_assoc, List.singleton_append, words_cons (h w (by simp)) ' ' rfl,
        ih (fun x hx => h x (by simp [hx]))]

theorem turn_sets {name val nl line eq old : List Char} {rest : List (List Char)} (h : Sets name line eq old rest) :
    turn name val nl line = some (join nl (name :: eq :: val :: rest), ' ' :: ' ' :: (join nl (name :: eq :: val :: rest) ++ ['\n'])) := by
  unfold Sets at h
  unfold turn
  rw [h]
  simp

theorem turn_other {name val nl line : List Char} (h : (words line).head? ≠ some name) : turn name val nl line = some (nl, line) := by
  unfold turn
  cases hw : words line with
  | nil => rfl
  | cons w ws =>
    rw [hw] at h
    simp only [List.head?_cons, ne_eq, Option.some.injEq] at h
    simp [h]

theorem loop_other {name val : List Char} (nl : List Char) : ∀ (file : List (List Char)), (∀ l ∈ file, (words l).head? ≠ some name) →
    loop name val nl file = some file
  | [], _ => rfl
  | l :: ls, h => by
    rw [loop, turn_other (h l (by simp)), Option.bind_some, loop_other nl ls fun x hx => h x (by simp [hx])]
    rfl

theorem loop_append (name val : List Char) : ∀ (nl : List Char) (pre post : List (List Char)), (∀ l ∈ pre, (words l).head? ≠ some name) →
    loop name val nl (pre ++ post) = (loop name val nl post).map fun out => pre ++ out
  | nl, [], post, _ => by simp
  | nl, l :: ls, post, h => by
    rw [List.cons_append, loop, turn_other (h l (by simp)), Option.bind_some, loop_append name val nl ls post fun x hx => h x (by simp [hx])]
    cases loop name val nl post <;> rfl

theorem wanted_other {name val l : List Char} (h : (words l).head? ≠ some name) : Wanted name val l l := by
  refine ⟨fun eq old rest hs => ?_, fun _ => rfl⟩
  unfold Sets at hs
  rw [hs] at h
  simp at h

/-! ## C156 -/

/-- **C156**, partial: in a file in which one line sets the parameter that line gets the new value and all others are as they were.
Missing: files that set it on several lines (`c156_violation_repeated`). -/
theorem c156_once_partial (name val : List Char) (hn : IsWord name) (hv : IsWord val) (pre post : List (List Char)) (line eq old : List Char)
    (rest : List (List Char)) (hs : Sets name line eq old rest) (hpre : ∀ l ∈ pre, (words l).head? ≠ some name)
    (hpost : ∀ l ∈ post, (words l).head? ≠ some name) :
    ∃ out, substitute name val (pre ++ line :: post) = some out ∧ List.Forall₂ (Wanted name val) (pre ++ line :: post) out := by
  have hw : ∀ w ∈ name :: eq :: old :: rest, IsWord w := fun w hw => mem_words (s := line) (by unfold Sets at hs; rw [hs]; exact hw)
  have hnew : ∀ w ∈ name :: eq :: val :: rest, IsWord w := by
    intro w h
    simp only [List.mem_cons] at h
    rcases h with rfl | rfl | rfl | h
    · exact hn
    · exact hw _ (by simp)
    · exact hv
    · exact hw _ (by simp [h])
  refine ⟨pre ++ (' ' :: ' ' :: (join [' '] (name :: eq :: val :: rest) ++ ['\n'])) :: post, ?_, ?_⟩
  · unfold substitute
    rw [loop_append _ _ _ _ _ hpre, loop, turn_sets hs, Option.bind_some, loop_other _ _ hpost]
    rfl
  · refine List.rel_append ?_ (.cons ?_ ?_)
    · exact List.forall₂_same.2 fun l hl => wanted_other (hpre l hl)
    · refine ⟨fun eq' old' rest' h => ?_, fun h => absurd hs (h _ _ _)⟩
      unfold Sets at h hs
      rw [hs] at h
      simp only [List.cons.injEq, true_and] at h
      obtain ⟨rfl, rfl, rfl⟩ := h
      rw [words_blank ' ' rfl, words_blank ' ' rfl]
      exact words_join _ hnew _ (by rw [words_blank '\n' rfl]; rfl) (by rintro c s h; simp only [List.cons.injEq] at h; rw [← h.1]; rfl)
    · exact List.forall₂_same.2 fun l hl => wanted_other (hpost l hl)

/-- The name written `k + 1` times without blanks. -/
def repeated (name : List Char) : ℕ → List Char
  | 0 => name
  | k + 1 => name ++ repeated name k

/-- What `newline` begins with after `k + 1` lines that set the parameter. -/
theorem loop_repeats (name val : List Char) (hn : IsWord name) : ∀ (file : List (List Char)) (k : ℕ) (nl tail : List Char),
    nl = repeated name k ++ ' ' :: tail → (∀ l ∈ file, ∃ eq old rest, Sets name l eq old rest) →
    ∃ out, loop name val nl file = some out ∧ ∀ i (h : i < out.length), (words out[i]).head? = some (repeated name (k + 1 + i))
  | [], k, nl, tail, _, _ => ⟨[], rfl, fun i h => by simp at h⟩
  | l :: ls, k, nl, tail, e, h => by
    obtain ⟨eq, old, rest, hs⟩ := h l (by simp)
    have hr : ∀ k, IsWord (repeated name k) := by
      intro k
      induction k with
      | zero => exact hn
      | succ k ih =>
        refine ⟨by simp [repeated, hn.1], fun c hc => ?_⟩
        rw [repeated, List.mem_append] at hc
        exact hc.elim (hn.2 c) (ih.2 c)
    have e1 : join nl (name :: eq :: val :: rest) = repeated name (k + 1) ++ ' ' :: (tail ++ join nl (eq :: val :: rest)) := by
      rw [join, e, repeated]
      simp [List.append_assoc]
    obtain ⟨out, ho, hi⟩ := loop_repeats name val hn ls (k + 1) _ _ e1 fun x hx => h x (by simp [hx])
    refine ⟨_, by rw [loop, turn_sets hs, Option.bind_some, ho, Option.map_some], fun i h => ?_⟩
    cases i with
    | zero =>
      rw [List.getElem_cons_zero, words_blank ' ' rfl, words_blank ' ' rfl, e1, List.append_assoc, List.cons_append,
        words_cons (hr _) ' ' rfl]
      rfl
    | succ i =>
      rw [List.getElem_cons_succ, hi i (by simpa using h), show k + 1 + 1 + i = k + 1 + (i + 1) by omega]

/-- **C156** is violated when the parameter is set on several lines (as `interval` is in several blocks of an input file): the separator of
the second line is the first line.  Of lines that all set it, line `i` begins with the name written `i + 1` times without blanks. -/
theorem c156_violation_repeated (name val : List Char) (hn : IsWord name) (file : List (List Char))
    (h : ∀ l ∈ file, ∃ eq old rest, Sets name l eq old rest) :
    ∃ out, substitute name val file = some out ∧ ∀ i (hi : i < out.length), (words out[i]).head? = some (repeated name i) := by
  cases file with
  | nil => exact ⟨[], rfl, fun i h => by simp at h⟩
  | cons l ls =>
    obtain ⟨eq, old, rest, hs⟩ := h l (by simp)
    have e1 : join [' '] (name :: eq :: val :: rest) = repeated name 0 ++ ' ' :: join [' '] (eq :: val :: rest) := by
      rw [join, repeated]; simp
    obtain ⟨out, ho, hi⟩ := loop_repeats name val hn ls 0 _ _ e1 fun x hx => h x (by simp [hx])
    refine ⟨_, by rw [substitute, loop, turn_sets hs, Option.bind_some, ho, Option.map_some], fun i h => ?_⟩
    cases i with
    | zero =>
      rw [List.getElem_cons_zero, words_blank ' ' rfl, words_blank ' ' rfl, e1, List.append_assoc, List.cons_append, repeated, words_cons hn ' ' rfl]
      rfl
    | succ i => rw [List.getElem_cons_succ, hi i (by simpa using h), Nat.zero_add, Nat.add_comm]

/-- So the second line is not what is wanted. -/
theorem c156_violation_wanted (name val : List Char) (hn : IsWord name) (l1 l2 : List Char)
    (h1 : ∃ eq old rest, Sets name l1 eq old rest) (h2 : ∃ eq old rest, Sets name l2 eq old rest) :
    ∃ o1 o2, substitute name val [l1, l2] = some [o1, o2] ∧ ¬ Wanted name val l2 o2 := by
  obtain ⟨e1, v1, r1, s1⟩ := h1
  obtain ⟨e2, v2, r2, s2⟩ := h2
  refine ⟨_, _, by rw [substitute, loop, turn_sets s1, Option.bind_some, loop, turn_sets s2, Option.bind_some, loop]; rfl, fun hw => ?_⟩
  obtain ⟨out, ho, hi⟩ := c156_violation_repeated name val hn [l1, l2] (by
    intro l hl
    simp only [List.mem_cons, List.not_mem_nil, or_false] at hl
    rcases hl with rfl | rfl
    exacts [⟨_, _, _, s1⟩, ⟨_, _, _, s2⟩])
  rw [substitute, loop, turn_sets s1, Option.bind_some, loop, turn_sets s2, Option.bind_some, loop] at ho
  have ho' := Option.some.inj ho
  subst ho'
  have h := hi 1 (by simp)
  have w := hw.1 _ _ _ s2
  simp only [List.getElem_cons_succ, List.getElem_cons_zero] at h
  rw [w] at h
  simp only [List.head?_cons, repeated, Option.some.injEq] at h
  exact hn.1 (List.self_eq_append_right.1 h)

/-- **C156** is violated silently for a parameter written without blanks (`name=value`, which the input parser accepts): the line is
printed as it was. -/
theorem c156_violation_blanks (name val line w : List Char) (ws : List (List Char)) (hw : words line = (name ++ '=' :: w) :: ws) :
    substitute name val [line] = some [line] := by
  have : (words line).head? ≠ some name := by
    rw [hw]
    simp
  exact loop_other _ _ (by simpa using this)

/-- A line that begins with the name and has less than three words stops the script. -/
theorem c156_short (name val line : List Char) (ws : List (List Char)) (hw : words line = name :: ws) (h : ws.length < 2) (file : List (List Char)) :
    substitute name val (line :: file) = none := by
  have : turn name val [' '] line = none := by
    unfold turn
    rw [hw]
    match ws, h with
    | [], _ => simp
    | [v], _ => simp
  rw [substitute, loop, this]
  rfl

/-- `dt = 0.1` in a block. -/
example : substitute "dt".toList "0.5".toList ["Block {\n".toList, "   dt = 0.1   // step\n".toList, "}\n".toList]
    = some ["Block {\n".toList, "  dt = 0.5 // step\n".toList, "}\n".toList] := by decide

/-- Two blocks with the same name. -/
example : substitute "n".toList "7".toList ["n = 1\n".toList, "n = 2\n".toList]
    = some ["  n = 7\n".toList, "  nn = 7=n = 77\n".toList] := by decide

example : ∃ eq old rest, Sets "n".toList "n = 1\n".toList eq old rest := ⟨['='], ['1'], [], by unfold Sets; decide⟩

end AMPE.Substitute.Props
