import Verif.Model.VolFrac
import Mathlib.Tactic.Linarith
import Mathlib.Tactic.NormNum

/-!
# C157: the table of volume fractions has the right times
-/

namespace AMPE.VolFrac.Props

open AMPE.EventInterval AMPE.VolFrac

/-! ## Specification -/

/-- The volume fractions evaluated at time `t`. -/
def at_ (t : ℝ) (d : Option Diag) : List (ℝ × ℝ) := (d.elim [] Diag.fracs).map fun v => (t, v)

/-- What the run has evaluated: the volume fractions of all diagnostics with the simulated time at which they were evaluated. -/
def evaluated (t0 : ℝ) (d0 : Option Diag) (xs : List Pass) (dEnd : Option Diag) : List (ℝ × ℝ) :=
  at_ t0 d0 ++ xs.flatMap (fun x => at_ x.t x.diag) ++ at_ ((xs.map Pass.t).getLastD t0) dEnd

/-- The time grows from pass to pass. -/
def Forward : ℝ → List Pass → Prop
  | _, [] => True
  | t, x :: xs => t < x.t ∧ Forward x.t xs

/-- Each volume fraction with the last time told above it. -/
def labels : ℝ → List Line → List (ℝ × ℝ)
  | _, [] => []
  | _, .cycle s :: L => labels s L
  | t, .frac v :: L => (t, v) :: labels t L
  | t, .other :: L => labels t L

/-- Above every volume fraction there is a line with the time, at most 999 lines above. -/
def Near (L : List Line) : Prop :=
  ∀ pre v post, L = pre ++ Line.frac v :: post → ∃ a t b, pre = a ++ Line.cycle t :: b ∧ (∀ s, Line.cycle s ∉ b) ∧ b.length < 999

/-! ## Lemmas -/

/-- The last time told in a part of the log, `t` before. -/
def told : ℝ → List Line → ℝ
  | t, [] => t
  | _, .cycle s :: L => told s L
  | t, _ :: L => told t L

theorem told_append (A B : List Line) : ∀ t, told t (A ++ B) = told (told t A) B := by
  induction A with
  | nil => intro t; rfl
  | cons x A ih => intro t; cases x <;> simp only [List.cons_append, told, ih]

theorem labels_append (A B : List Line) : ∀ t, labels t (A ++ B) = labels t A ++ labels (told t A) B := by
  induction A with
  | nil => intro t; rfl
  | cons x A ih => intro t; cases x <;> simp only [List.cons_append, labels, told, ih]

theorem told_others (t : ℝ) (n : ℕ) : told t (List.replicate n .other) = t := by
  induction n with
  | zero => rfl
  | succ n ih => rw [List.replicate_succ, told, ih]; simp

theorem labels_others (t : ℝ) (n : ℕ) : labels t (List.replicate n .other) = [] := by
  induction n with
  | zero => rfl
  | succ n ih => rw [List.replicate_succ, labels, ih]

theorem told_fracs (t : ℝ) (l : List ℝ) : told t (l.map .frac) = t := by
  induction l with
  | nil => rfl
  | cons v l ih => rw [List.map_cons, told, ih]; simp

theorem labels_fracs (t : ℝ) (l : List ℝ) : labels t (l.map .frac) = l.map fun v => (t, v) := by
  induction l with
  | nil => rfl
  | cons v l ih => rw [List.map_cons, labels, ih]; rfl

theorem told_none (b : List Line) (hb : ∀ s, Line.cycle s ∉ b) : ∀ t, told t b = t := by
  induction b with
  | nil => intro t; rfl
  | cons x b ih =>
    intro t
    have := ih fun s hs => hb s (by simp [hs])
    cases x with
    | cycle s => exact absurd (by simp) (hb s)
    | frac v => exact this t
    | other => exact this t

/-! ### The script -/

theorem pyGet_at (p q : List Line) (x : Line) : pyGet (p ++ x :: q) (p.length : ℤ) = some x := by
  unfold pyGet
  rw [if_pos (by omega)]
  simp

theorem pyGet_end (p q : List Line) (x : Line) : pyGet (p ++ x :: q) (-1 - (q.length : ℤ)) = some x := by
  unfold pyGet
  rw [if_neg (by omega)]
  have : (-1 - (q.length : ℤ)) + ((p ++ x :: q).length : ℤ) = (p.length : ℤ) := by simp; omega
  rw [this, if_pos (by omega)]
  simp

theorem back_found (t : ℝ) (post a : List Line) : ∀ (n : ℕ) (b c : List Line) (fuel : ℕ), b.length = n → (∀ s, Line.cycle s ∉ b) → n < fuel →
    back (a ++ Line.cycle t :: (b ++ c) ++ post) ((a.length + b.length : ℕ) : ℤ) fuel = some (some t)
  | 0, b, c, fuel, hl, _, hf => by
    obtain rfl := List.length_eq_zero_iff.1 hl
    obtain ⟨f, rfl⟩ : ∃ f, fuel = f + 1 := ⟨fuel - 1, by omega⟩
    rw [back, List.append_assoc, List.cons_append]
    have := pyGet_at a ([] ++ c ++ post) (.cycle t)
    simp only [List.length_nil, add_zero] at *
    rw [this]
  | n + 1, b, c, fuel, hl, hb, hf => by
    obtain ⟨f, rfl⟩ : ∃ f, fuel = f + 1 := ⟨fuel - 1, by omega⟩
    have hne : b ≠ [] := by rintro rfl; simp at hl
    obtain ⟨b', x, rfl⟩ : ∃ b' x, b = b' ++ [x] := ⟨b.dropLast, b.getLast hne, (List.dropLast_append_getLast hne).symm⟩
    have hl' : b'.length = n := by simpa using hl
    have hx : pyGet (a ++ Line.cycle t :: (b' ++ [x] ++ c) ++ post) ((a.length + (b' ++ [x]).length : ℕ) : ℤ) = some x := by
      have := pyGet_at (a ++ Line.cycle t :: b') (c ++ post) x
      rw [show a ++ Line.cycle t :: (b' ++ [x] ++ c) ++ post = (a ++ Line.cycle t :: b') ++ x :: (c ++ post) by simp]
      rw [← this]
      congr 1
      simp
    have ih := back_found t post a n b' ([x] ++ c) f hl' (fun s hs => hb s (by simp [hs])) (by omega)
    rw [back, hx]
    have e : ((a.length + (b' ++ [x]).length : ℕ) : ℤ) - 1 = ((a.length + b'.length : ℕ) : ℤ) := by simp; omega
    rw [← List.append_assoc] at ih
    cases x with
    | cycle s => exact absurd (by simp) (hb s)
    | frac v => simp only [e]; exact ih
    | other => simp only [e]; exact ih

theorem back_none (a post : List Line) : ∀ (n : ℕ) (b c : List Line), b.length = n → (∀ s, Line.cycle s ∉ b) →
    back (a ++ (b ++ c) ++ post) ((a.length + b.length : ℕ) - 1 : ℤ) n = some none
  | 0, b, c, hl, _ => by rw [back]
  | n + 1, b, c, hl, hb => by
    have hne : b ≠ [] := by rintro rfl; simp at hl
    obtain ⟨b', x, rfl⟩ : ∃ b' x, b = b' ++ [x] := ⟨b.dropLast, b.getLast hne, (List.dropLast_append_getLast hne).symm⟩
    have hl' : b'.length = n := by simpa using hl
    have e0 : ((a.length + (b' ++ [x]).length : ℕ) - 1 : ℤ) = (((a ++ b').length : ℕ) : ℤ) := by simp; omega
    have hx : pyGet (a ++ (b' ++ [x] ++ c) ++ post) ((a.length + (b' ++ [x]).length : ℕ) - 1 : ℤ) = some x := by
      have := pyGet_at (a ++ b') (c ++ post) x
      rw [e0, ← this]
      congr 1
      simp
    have ih := back_none a post n b' ([x] ++ c) hl' (fun s hs => hb s (by simp [hs]))
    rw [back, hx]
    have e : ((a.length + (b' ++ [x]).length : ℕ) - 1 : ℤ) - 1 = ((a.length + b'.length : ℕ) - 1 : ℤ) := by simp; omega
    rw [← List.append_assoc b' [x] c] at ih
    cases x with
    | cycle s => exact absurd (by simp) (hb s)
    | frac v => simp only [e]; exact ih
    | other => simp only [e]; exact ih

theorem scan_near (L : List Line) (h : Near L) : ∀ (post pre : List Line) (time : ℝ), L = pre ++ post →
    scan L pre.length time post = some (labels (told 0 pre) post)
  | [], pre, time, _ => rfl
  | x :: post, pre, time, e => by
    have ih := fun time => scan_near L h post (pre ++ [x]) time (by simp [e])
    rw [List.length_append, List.length_singleton, told_append] at ih
    cases x with
    | cycle s => rw [scan, ih]; rfl; simp
    | other => rw [scan, ih]; rfl; simp
    | frac v =>
      obtain ⟨a, t, b, hp, hb, hlen⟩ := h pre v post e
      have f := back_found t (Line.frac v :: post) a b.length b [] 999 rfl hb hlen
      have e1 : a ++ Line.cycle t :: (b ++ []) ++ Line.frac v :: post = L := by rw [e, hp]; simp
      have e2 : ((a.length + b.length : ℕ) : ℤ) = (pre.length : ℤ) - 1 := by rw [hp]; simp; omega
      rw [e1, e2] at f
      have ht : told 0 pre = t := by rw [hp, told_append]; exact told_none b hb t
      rw [scan, f, Option.bind_some, Option.getD_some, ih, Option.map_some, labels, ht]
      rfl

/-! ### The run -/

section
variable {ns : Bool} {s : State}

/-- If the event of this time has occurred, its line is the last with a time. -/
def Ok (s : State) (now t : ℝ) : Prop := s.lastEvent ≤ now ∧ (s.lastEvent = now → t = now)

theorem print_ok {now t : ℝ} (h : Ok s now t) (d : Option Diag) :
    labels t (diagLines s now d) = at_ now d ∧ Ok s now (told t (diagLines s now d)) := by
  cases d with
  | none => exact ⟨rfl, h⟩
  | some d =>
    have key : ∀ t', (eventOccurredAtTime s now = true → t' = now) →
        labels t' ((if eventOccurredAtTime s now then [] else [Line.cycle now]) ++ List.replicate d.mid .other ++ d.fracs.map .frac
          ++ List.replicate d.tail .other) = d.fracs.map (fun v => (now, v)) ∧
        told t' ((if eventOccurredAtTime s now then [] else [Line.cycle now]) ++ List.replicate d.mid .other ++ d.fracs.map .frac
          ++ List.replicate d.tail .other) = now := by
      intro t' ht
      simp only [labels_append, told_append, labels_others, told_others, labels_fracs, told_fracs, List.append_nil]
      by_cases ho : eventOccurredAtTime s now = true
      · simp only [ho, if_true, labels, told, ht ho, List.nil_append, and_self]
      · simp only [ho, Bool.false_eq_true, if_false, labels, told, List.nil_append, and_self]
    have occ : eventOccurredAtTime s now = true → t = now := fun ho => h.2 (by simp [eventOccurredAtTime] at ho; exact ho.2)
    have := key t occ
    have heat : ∀ t, labels t (if d.heat then [Line.other] else []) = [] ∧ told t (if d.heat then [Line.other] else []) = t := by
      intro t; cases d.heat <;> simp [labels, told]
    have split : diagLines s now (some d) = (if d.heat then [Line.other] else []) ++ ((if eventOccurredAtTime s now then [] else [Line.cycle now])
        ++ List.replicate d.mid .other ++ d.fracs.map .frac ++ List.replicate d.tail .other) := by
      simp only [diagLines, Option.elim, printScalar, List.append_assoc]
    rw [split, labels_append, told_append, (heat t).1, (heat t).2, this.1, this.2]
    exact ⟨rfl, h.1, fun _ => rfl⟩

theorem pass_ok {now t : ℝ} (h : Ok s now t) {k : ℤ} {x : Pass} (hx : now < x.t) {r : State × List Line} (hr : pass ns s k x = some r) :
    labels t r.2 = at_ x.t x.diag ∧ Ok r.1 x.t (told t r.2) := by
  have core : ∀ (q : State) (b : Bool), (b = true → q.lastEvent = x.t) → (b = false → q.lastEvent = s.lastEvent) →
      labels t (List.replicate x.adv .other ++ (if b then [Line.cycle x.t] else []) ++ List.replicate x.mid .other ++ diagLines q x.t x.diag
        ++ List.replicate x.post .other) = at_ x.t x.diag ∧
      Ok q x.t (told t (List.replicate x.adv .other ++ (if b then [Line.cycle x.t] else []) ++ List.replicate x.mid .other
        ++ diagLines q x.t x.diag ++ List.replicate x.post .other)) := by
    intro q b h1 h2
    simp only [labels_append, told_append, labels_others, told_others, List.append_nil, List.nil_append]
    cases b with
    | true =>
      have := print_ok (s := q) (now := x.t) (t := x.t) ⟨(h1 rfl).le, fun _ => rfl⟩ x.diag
      simpa only [if_true, labels, told, List.nil_append] using this
    | false =>
      have := print_ok (s := q) (now := x.t) (t := t) ⟨(h2 rfl).trans_le (h.1.trans hx.le), fun e => absurd e (by
        rw [h2 rfl]; exact (h.1.trans_lt hx).ne)⟩ x.diag
      simpa only [Bool.false_eq_true, if_false, labels, told, List.nil_append] using this
  unfold pass at hr
  cases ns with
  | false =>
    simp only [Bool.false_eq_true, if_false, Option.map_some, Option.some.injEq] at hr
    rw [← hr]
    exact core s false (by simp) (fun _ => rfl)
  | true =>
    simp only [if_true, hasIntervalPassed] at hr
    cases hb : intervalPassed s k x.t with
    | none => simp [hb] at hr
    | some b =>
      simp only [hb, Option.bind_eq_bind, Option.bind_some, Option.map_some, Option.some.injEq] at hr
      rw [← hr]
      exact core _ b (by rintro rfl; rfl) (by rintro rfl; rfl)

theorem passes_ok : ∀ (xs : List Pass) (s : State) (now t : ℝ) (k : ℤ), Ok s now t → Forward now xs → ∀ r, passes ns s k xs = some r →
    labels t r.2 = xs.flatMap (fun x => at_ x.t x.diag) ∧ Ok r.1 ((xs.map Pass.t).getLastD now) (told t r.2)
  | [], s, now, t, k, h, _, r, hr => by
    simp only [passes, Option.some.injEq] at hr
    rw [← hr]
    exact ⟨rfl, h⟩
  | x :: xs, s, now, t, k, h, hf, r, hr => by
    rw [passes, Option.bind_eq_some_iff] at hr
    obtain ⟨p, hp, hr⟩ := hr
    rw [Option.map_eq_some_iff] at hr
    obtain ⟨q, hq, rfl⟩ := hr
    have h1 := pass_ok h hf.1 hp
    have h2 := passes_ok xs p.1 x.t (told t p.2) (k + 1) h1.2 hf.2 q hq
    refine ⟨?_, ?_⟩
    · rw [labels_append, h1.1, h2.1, List.flatMap_cons]
    · rw [told_append, List.map_cons, List.getLastD_cons]
      exact h2.2

theorem begin_ok {t0 : ℝ} (h : s.lastEvent < t0) (pre mid post : ℕ) (d0 : Option Diag) (t : ℝ) :
    labels t (begin ns s t0 pre mid post d0).2 = at_ t0 d0 ∧ Ok (begin ns s t0 pre mid post d0).1 t0 (told t (begin ns s t0 pre mid post d0).2) := by
  have p := print_ok (s := s) (now := t0) (t := t) ⟨h.le, fun e => absurd e h.ne⟩ d0
  unfold begin
  simp only [labels_append, told_append, labels_others, told_others, List.append_nil, List.nil_append]
  cases ns with
  | false =>
    simp only [Bool.false_eq_true, if_false, labels, told, List.append_nil]
    exact p
  | true =>
    simp only [if_true]
    cases hb : (includeInitial s t0).2 with
    | false =>
      have e : (includeInitial s t0).1.lastEvent = s.lastEvent := by
        simp only [includeInitial] at hb ⊢
        rw [if_neg (by rw [hb]; simp)]
      simp only [Bool.false_eq_true, if_false, labels, told, List.append_nil]
      exact ⟨p.1, e.trans_le h.le, fun e' => absurd (e.symm.trans e') h.ne⟩
    | true =>
      have e : (includeInitial s t0).1.lastEvent = t0 := by
        simp only [includeInitial] at hb ⊢
        rw [if_pos hb]
        rfl
      simp only [if_true, labels, told, List.append_nil]
      exact ⟨p.1, e.le, fun _ => rfl⟩

end

/-! ## C157 -/

/-- **C157**: whatever the schedules and whether or not the run is silent, the last time told in the log above a volume fraction is the time at
which it was evaluated. -/
theorem c157_log (ns : Bool) (s : State) (t0 : ℝ) (hs : s.lastEvent < t0) (pre mid post : ℕ) (d0 : Option Diag) (k : ℤ) (xs : List Pass)
    (hx : Forward t0 xs) (dEnd : Option Diag) (after : ℕ) (L : List Line) (hL : log ns s t0 pre mid post d0 k xs dEnd after = some L) (t : ℝ) :
    labels t L = evaluated t0 d0 xs dEnd := by
  unfold log at hL
  rw [Option.map_eq_some_iff] at hL
  obtain ⟨q, hq, rfl⟩ := hL
  have h1 := begin_ok (ns := ns) hs pre mid post d0 t
  have h2 := passes_ok xs _ _ _ k h1.2 hx q hq
  have h3 := print_ok h2.2 dEnd
  simp only [labels_append, told_append, labels_others, List.append_nil]
  rw [h1.1, h2.1, h3.1, evaluated]

/-- **C157**, partial: if in the log of a run a line with the time is at most 999 lines above every volume fraction, the script prints the
volume fractions that were evaluated, in order, with the times of their evaluation.  Missing: logs with more lines in between
(`c157_violation_far`). -/
theorem c157_table_partial (ns : Bool) (s : State) (t0 : ℝ) (hs : s.lastEvent < t0) (pre mid post : ℕ) (d0 : Option Diag) (k : ℤ)
    (xs : List Pass) (hx : Forward t0 xs) (dEnd : Option Diag) (after : ℕ) (L : List Line)
    (hL : log ns s t0 pre mid post d0 k xs dEnd after = some L) (hn : Near L) : script L = some (evaluated t0 d0 xs dEnd) := by
  have h := scan_near L hn L [] 0 rfl
  rw [script, show (0 : ℕ) = ([] : List Line).length from rfl, h, told,
    c157_log ns s t0 hs pre mid post d0 k xs hx dEnd after L hL 0]

/-- A freshly constructed schedule and a start time that is not negative meet the hypothesis on the schedule. -/
theorem c157_fresh (inp : Input) (v : ℝ) (ty : String) (f l : Bool) (s : State) (h : construct inp v ty f l = some s) (t0 : ℝ) (ht : 0 ≤ t0) :
    s.lastEvent < t0 := by
  unfold construct at h
  simp only [Option.bind_eq_bind, Option.bind_eq_some_iff] at h
  obtain ⟨n, -, h⟩ := h
  split_ifs at h
  all_goals
    simp only [Option.some.injEq] at h
    rw [← h]
    show (-1 : ℝ) < t0
    linarith

theorem back_far (p : List Line) (x : Line) (n m : ℕ) (h : m ≤ n) :
    back (p ++ List.replicate n .other ++ [x]) (((n + p.length : ℕ) : ℤ) - 1) m = some none := by
  have := back_none (p ++ List.replicate (n - m) .other) [x] m (List.replicate m .other) []
    (List.length_replicate ..) (by intro s hs; have := List.eq_of_mem_replicate hs; cases this)
  have e : (p ++ List.replicate (n - m) .other) ++ (List.replicate m .other ++ []) ++ [x] = p ++ List.replicate n .other ++ [x] := by
    rw [List.append_nil, List.append_assoc p, List.replicate_append_replicate, Nat.sub_add_cancel h]
  rw [e] at this
  rw [← this]
  congr 2
  rw [List.length_append, List.length_replicate, List.length_replicate]
  omega

theorem scan_others (L : List Line) (q : List Line) : ∀ (m k : ℕ) (time : ℝ), scan L k time (List.replicate m .other ++ q) = scan L (k + m) time q := by
  intro m
  induction m with
  | zero => intro k time; rfl
  | succ m ih =>
    intro k time
    rw [List.replicate_succ, List.cons_append, scan, ih, show k + 1 + m = k + (m + 1) by omega]
    simp

/-- **C157** is violated when 999 or more other lines (the volumes of many grains, for instance) are between the line with the time and the
volume fraction: the script prints the time of the entry before, here for every number of such lines. -/
theorem c157_violation_far (t0 t1 v0 v1 : ℝ) (n : ℕ) (hn : 999 ≤ n) :
    script ([.cycle t0, .frac v0, .cycle t1] ++ List.replicate n .other ++ [.frac v1]) = some [(t0, v0), (t0, v1)] := by
  have b1 := back_far [.cycle t0, .frac v0, .cycle t1] (.frac v1) n 999 hn
  have b0 : back ([.cycle t0, .frac v0, .cycle t1] ++ List.replicate n .other ++ [.frac v1]) (((0 + 1 : ℕ) : ℤ) - 1) 999 = some (some t0) := by
    have := back_found t0 ([.frac v0, .cycle t1] ++ List.replicate n .other ++ [.frac v1]) [] 0 [] [] 999 rfl (by simp) (by norm_num)
    exact this
  have key : ∀ L : List Line, back L (((0 + 1 : ℕ) : ℤ) - 1) 999 = some (some t0) → back L (((n + 3 : ℕ) : ℤ) - 1) 999 = some none →
      scan L 0 0 (.cycle t0 :: .frac v0 :: .cycle t1 :: (List.replicate n .other ++ [.frac v1])) = some [(t0, v0), (t0, v1)] := by
    intro L h0 h1
    rw [scan, scan, h0, Option.bind_some, Option.getD_some, scan, scan_others, scan, show 0 + 1 + 1 + 1 + n = n + 3 by omega, h1]
    · rfl
    · simp
    · simp
  exact key _ b0 b1

/-- **C157** is violated when the log begins with a volume fraction (a log that has been cut): Python's negative indices make the script take the
time of the last line with a time of the whole file. -/
theorem c157_violation_cut (t v : ℝ) (a b : List Line) (hb : ∀ s, Line.cycle s ∉ b) (hl : b.length < 999) (out : List (ℝ × ℝ))
    (h : script (Line.frac v :: (a ++ Line.cycle t :: b)) = some out) : out.head? = some (t, v) := by
  have key : ∀ (n : ℕ) (b c : List Line) (fuel : ℕ), b.length = n → (∀ s, Line.cycle s ∉ b) → n < fuel →
      back (Line.frac v :: (a ++ Line.cycle t :: (b ++ c))) (-1 - (c.length : ℤ)) fuel = some (some t) := by
    intro n
    induction n with
    | zero =>
      intro b c fuel hl _ hf
      obtain rfl := List.length_eq_zero_iff.1 hl
      obtain ⟨f, rfl⟩ : ∃ f, fuel = f + 1 := ⟨fuel - 1, by omega⟩
      have := pyGet_end (Line.frac v :: a) c (.cycle t)
      rw [List.cons_append] at this
      rw [back, List.nil_append, this]
    | succ n ih =>
      intro b c fuel hl hb hf
      obtain ⟨f, rfl⟩ : ∃ f, fuel = f + 1 := ⟨fuel - 1, by omega⟩
      have hne : b ≠ [] := by rintro rfl; simp at hl
      obtain ⟨b', x, rfl⟩ : ∃ b' x, b = b' ++ [x] := ⟨b.dropLast, b.getLast hne, (List.dropLast_append_getLast hne).symm⟩
      have hx := pyGet_end (Line.frac v :: (a ++ Line.cycle t :: b')) c x
      rw [show Line.frac v :: (a ++ Line.cycle t :: b') ++ x :: c = Line.frac v :: (a ++ Line.cycle t :: (b' ++ [x] ++ c)) by simp] at hx
      have i := ih b' ([x] ++ c) f (by simpa using hl) (fun s hs => hb s (by simp [hs])) (by omega)
      rw [← List.append_assoc] at i
      have e : (-1 - (c.length : ℤ)) - 1 = -1 - (([x] ++ c).length : ℤ) := by simp; omega
      rw [back, hx]
      cases x with
      | cycle s => exact absurd (by simp) (hb s)
      | frac v => simp only [e]; exact i
      | other => simp only [e]; exact i
  have k := key b.length b [] 999 rfl hb hl
  simp only [List.append_nil, List.length_nil] at k
  rw [script, scan] at h
  rw [show ((0 : ℕ) : ℤ) - 1 = -1 - ((0 : ℕ) : ℤ) by simp, k, Option.bind_some, Option.map_eq_some_iff] at h
  obtain ⟨o, -, rfl⟩ := h
  rfl

/-- A short log. -/
example : script [.other, .cycle 0, .other, .frac 0.5, .cycle 2, .frac 0.25, .frac 0.75] = some [(0, 0.5), (2, 0.25), (2, 0.75)] := by
  simp [script, scan, back, pyGet]

/-- A run of one pass in which nothing tells the time but the diagnostics (a silent run). -/
example (s : State) (hs : s.lastEvent = -1) :
    log false s 0 2 1 0 (some ⟨true, 3, [0.5], 4⟩) 1 [⟨0.25, 1, 0, some ⟨true, 3, [0.75], 4⟩, 0⟩] none 1 ≠ none := by
  simp [log, begin, passes, pass]

end AMPE.VolFrac.Props
