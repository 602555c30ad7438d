import Verif.Model.Drivers
import Mathlib.Data.List.Sort
import Mathlib.Tactic.Linarith
import Mathlib.Tactic.FieldSimp
import Mathlib.Tactic.Ring
import Mathlib.Tactic.NormNum
import Mathlib.Algebra.BigOperators.Group.Finset.Basic

/-!
# C141: the preparatory programs report the equilibria and mobility data they are asked for
-/

namespace AMPE.Drivers.Props

open AMPE.Drivers

/-! ## Specification -/

/-- Pass `k` of a program that starts every search from the previous result. -/
def pass {C : Type} (solver : Solver C) (T : ℕ → ℝ) (guess : C) : ℕ → Bool × C
  | 0 => solver (T 0) guess
  | k + 1 => solver (T (k + 1)) (pass solver T guess k).2

/-- A composition. -/
def Comp (c : ℝ) : Prop := 0 ≤ c ∧ c ≤ 1

/-- A set of points is the table of the function `c` of the temperature: every point is on the curve. -/
def OnCurve (T c : ℕ → ℝ) (table : List (ℝ × ℝ)) : Prop := ∀ p ∈ table, ∃ k < 50, p = (c k, T k)

/-- All fifty temperatures are in the table. -/
def Complete (T c : ℕ → ℝ) (table : List (ℝ × ℝ)) : Prop := ∀ k < 50, (c k, T k) ∈ table

/-! ## Ordered insertion -/

theorem accept_iff (f : Bool) (a b : ℝ) : accept f a b = true ↔ f = true ∧ Comp a ∧ Comp b := by
  unfold accept Comp
  simp only [gt_iff_lt]
  split_ifs <;> simp <;> intros <;> (try constructor) <;> (try constructor) <;> first | linarith | (intros; linarith) | skip
  all_goals first | linarith | (constructor <;> linarith) | skip

theorem mem_mapInsert (k v : ℝ) (m : List (ℝ × ℝ)) (hs : m.Pairwise fun p q => p.1 < q.1) (p : ℝ × ℝ) :
    p ∈ mapInsert k v m ↔ p ∈ m ∨ (p = (k, v) ∧ ∀ q ∈ m, q.1 ≠ k) := by
  induction m with
  | nil => simp [mapInsert]
  | cons a m ih =>
    obtain ⟨a, b⟩ := a
    rw [List.pairwise_cons] at hs
    obtain ⟨h1, h2⟩ := hs
    have ih := ih h2
    simp only [mapInsert]
    split_ifs with g1 g2
    · have : ∀ q ∈ (a, b) :: m, q.1 ≠ k := fun q hq => by
        rcases List.mem_cons.1 hq with rfl | hq
        · exact ne_of_gt g1
        · exact ne_of_gt (g1.trans (h1 q hq))
      rw [List.mem_cons]
      constructor
      · rintro (h | h)
        · exact Or.inr ⟨h, this⟩
        · exact Or.inl h
      · rintro (h | h)
        · exact Or.inr h
        · exact Or.inl h.1
    · rw [List.mem_cons, ih, List.mem_cons]
      constructor
      · rintro (h | h | ⟨h, h'⟩)
        · exact Or.inl (Or.inl h)
        · exact Or.inl (Or.inr h)
        · refine Or.inr ⟨h, fun q hq => ?_⟩
          rcases List.mem_cons.1 hq with rfl | hq
          · exact ne_of_lt g2
          · exact h' q hq
      · rintro ((h | h) | ⟨h, h'⟩)
        · exact Or.inl h
        · exact Or.inr (Or.inl h)
        · exact Or.inr (Or.inr ⟨h, fun q hq => h' q (List.mem_cons_of_mem _ hq)⟩)
    · have e : a = k := le_antisymm (not_lt.1 g1) (not_lt.1 g2)
      constructor
      · exact Or.inl
      · rintro (h | ⟨_, h'⟩)
        · exact h
        · exact absurd e (h' (a, b) (List.mem_cons_self))

theorem sorted_mapInsert (k v : ℝ) (m : List (ℝ × ℝ)) (hs : m.Pairwise fun p q => p.1 < q.1) :
    (mapInsert k v m).Pairwise fun p q => p.1 < q.1 := by
  induction m with
  | nil => simp [mapInsert]
  | cons a m ih =>
    obtain ⟨a, b⟩ := a
    have hs' := hs
    rw [List.pairwise_cons] at hs
    obtain ⟨h1, h2⟩ := hs
    simp only [mapInsert]
    split_ifs with g1 g2
    · rw [List.pairwise_cons]
      refine ⟨fun q hq => ?_, hs'⟩
      rcases List.mem_cons.1 hq with rfl | hq
      · exact g1
      · exact g1.trans (h1 q hq)
    · rw [List.pairwise_cons]
      refine ⟨fun q hq => ?_, ih h2⟩
      rcases (mem_mapInsert k v m h2 q).1 hq with h | ⟨h, _⟩
      · exact h1 q h
      · rw [h]; exact g2
    · exact hs'

/-- Table after the first `k` insertions of points `(key j, val j)`. -/
noncomputable def table (key val : ℕ → ℝ) : ℕ → List (ℝ × ℝ)
  | 0 => []
  | k + 1 => mapInsert (key k) (val k) (table key val k)

theorem table_spec (key val : ℕ → ℝ) (n : ℕ) : (table key val n).Pairwise (fun p q => p.1 < q.1) ∧
    ∀ p, p ∈ table key val n ↔ ∃ k < n, p = (key k, val k) ∧ ∀ j < k, key j ≠ key k := by
  induction n with
  | zero => simp [table]
  | succ n ih =>
    obtain ⟨hs, hm⟩ := ih
    refine ⟨sorted_mapInsert _ _ _ hs, fun p => ?_⟩
    rw [table, mem_mapInsert _ _ _ hs, hm]
    have first : ∀ k, (∃ j < k, key j = key k) → ∃ j < k, key j = key k ∧ ∀ i < j, key i ≠ key j := fun k => by
      intro h
      classical
      obtain ⟨h1, h2⟩ := Nat.find_spec h
      exact ⟨Nat.find h, h1, h2, fun i hi e => Nat.find_min h hi ⟨hi.trans h1, e.trans h2⟩⟩
    constructor
    · rintro (⟨k, hk, h⟩ | ⟨h, h'⟩)
      · exact ⟨k, hk.trans (Nat.lt_succ_self n), h⟩
      · refine ⟨n, Nat.lt_succ_self n, h, fun j hj e => ?_⟩
        obtain ⟨i, hi, e1, e2⟩ := first n ⟨j, hj, e⟩
        exact h' (key i, val i) ((hm _).2 ⟨i, hi, rfl, e2⟩) e1
    · rintro ⟨k, hk, h, h'⟩
      rcases Nat.lt_succ_iff_lt_or_eq.1 hk with hk | rfl
      · exact Or.inl ⟨k, hk, h, h'⟩
      · refine Or.inr ⟨h, fun q hq => ?_⟩
        obtain ⟨j, hj, rfl, _⟩ := (hm q).1 hq
        exact h' j hj

/-! ## The loops -/

section Binary

variable (solver : Solver (ℝ × ℝ)) (low high : ℝ) (guess : ℝ × ℝ)

/-- Liquid composition of pass `k`. -/
noncomputable def cl (k : ℕ) : ℝ := (pass solver (temperature low high) guess k).2.1
/-- Solid composition of pass `k`. -/
noncomputable def cs (k : ℕ) : ℝ := (pass solver (temperature low high) guess k).2.2

/-- Pass `k` finds an equilibrium with compositions between 0 and 1. -/
def Good (k : ℕ) : Prop :=
  (pass solver (temperature low high) guess k).1 = true ∧ Comp (cl solver low high guess k) ∧ Comp (cs solver low high guess k)

theorem sweep_eq (n k : ℕ) (c : ℝ × ℝ) (hc : solver (temperature low high k) c = pass solver (temperature low high) guess k) :
    ((∀ j, k ≤ j → j < k + n → Good solver low high guess j) →
      sweep solver low high n k c (table (cl solver low high guess) (temperature low high) k) (table (cs solver low high guess) (temperature low high) k)
      = some (table (cl solver low high guess) (temperature low high) (k + n), table (cs solver low high guess) (temperature low high) (k + n))) ∧
    ((∃ j, k ≤ j ∧ j < k + n ∧ ¬Good solver low high guess j) →
      sweep solver low high n k c (table (cl solver low high guess) (temperature low high) k) (table (cs solver low high guess) (temperature low high) k)
      = none) := by
  induction n generalizing k c with
  | zero =>
    refine ⟨fun _ => rfl, ?_⟩
    rintro ⟨j, h1, h2, _⟩; omega
  | succ n ih =>
    have hnext : solver (temperature low high (k + 1)) (pass solver (temperature low high) guess k).2
      = pass solver (temperature low high) guess (k + 1) := rfl
    obtain ⟨i1, i2⟩ := ih (k + 1) _ hnext
    have hacc := accept_iff (pass solver (temperature low high) guess k).1 (pass solver (temperature low high) guess k).2.1
      (pass solver (temperature low high) guess k).2.2
    have hg : accept (pass solver (temperature low high) guess k).1 (pass solver (temperature low high) guess k).2.1
        (pass solver (temperature low high) guess k).2.2 = true ↔ Good solver low high guess k := hacc
    rw [sweep]
    simp only [hc]
    constructor
    · intro h
      rw [if_pos (hg.2 (h k le_rfl (by omega)))]
      have := i1 fun j h1 h2 => h j (by omega) (by omega)
      rw [show k + (n + 1) = k + 1 + n by omega]
      exact this
    · rintro ⟨j, h1, h2, h3⟩
      by_cases hk : Good solver low high guess k
      · rw [if_pos (hg.2 hk)]
        refine i2 ⟨j, ?_, by omega, h3⟩
        rcases Nat.eq_or_lt_of_le h1 with rfl | h
        · exact absurd hk h3
        · exact h
      · rw [if_neg (fun h => hk (hg.1 h))]

/-- Different passes have different temperatures. -/
theorem temperature_inj {low high : ℝ} (h : low < high) {i j : ℕ} (e : temperature low high i = temperature low high j) : i = j := by
  unfold temperature at e
  simp only at e
  have h3 : ((i : ℝ) - j) * ((high - low) / 50) = 0 := by linarith
  rcases mul_eq_zero.1 h3 with h' | h'
  · have : (i : ℝ) = j := by linarith
    exact_mod_cast this
  · linarith

/-- **C141**: the two tables exist exactly if every one of the fifty searches succeeded; a table then consists of points of the curve,
in the order of the composition, a composition met at several temperatures being listed with the lowest of them only. -/
theorem c141_binary_table_partial (hT : low < high) :
    ((∀ k < 50, Good solver low high guess k) → ∃ L S, plotEquilibrium true solver low high guess = some (L, S) ∧
      L.Pairwise (fun p q => p.1 < q.1) ∧ S.Pairwise (fun p q => p.1 < q.1) ∧
      OnCurve (temperature low high) (cl solver low high guess) L ∧ OnCurve (temperature low high) (cs solver low high guess) S ∧
      (∀ k < 50, (cl solver low high guess k, temperature low high k) ∈ L ↔ ∀ j < k, cl solver low high guess j ≠ cl solver low high guess k) ∧
      (∀ k < 50, (cs solver low high guess k, temperature low high k) ∈ S ↔ ∀ j < k, cs solver low high guess j ≠ cs solver low high guess k)) ∧
    ((∃ k < 50, ¬Good solver low high guess k) → plotEquilibrium true solver low high guess = none) := by
  obtain ⟨i1, i2⟩ := sweep_eq solver low high guess 50 0 guess rfl
  constructor
  · intro h
    have e := i1 fun j _ hj => h j (by omega)
    refine ⟨_, _, by rw [plotEquilibrium, if_pos rfl]; exact e, (table_spec _ _ _).1, (table_spec _ _ _).1, ?_, ?_, ?_, ?_⟩
    · intro p hp
      obtain ⟨k, hk, e, _⟩ := ((table_spec _ _ _).2 p).1 hp
      exact ⟨k, by omega, e⟩
    · intro p hp
      obtain ⟨k, hk, e, _⟩ := ((table_spec _ _ _).2 p).1 hp
      exact ⟨k, by omega, e⟩
    all_goals
      intro k hk
      rw [(table_spec _ _ _).2]
      constructor
      · rintro ⟨i, hi, e, hf⟩
        obtain rfl := temperature_inj hT (Prod.mk.inj e).2
        exact hf
      · exact fun hall => ⟨k, by omega, rfl, hall⟩
  · rintro ⟨k, hk, h⟩
    rw [plotEquilibrium, if_pos rfl]
    exact i2 ⟨k, Nat.zero_le _, by omega, h⟩

/-- **C141**: if the solver is right whenever it reports success, every line of the two blocks is a point of the phase diagram: some
composition of the other phase is in equilibrium with it at the temperature of the line. -/
theorem c141_rows_equilibria (Eq : ℝ → ℝ → ℝ → Prop) (hsound : ∀ T c, (solver T c).1 = true → Eq T (solver T c).2.1 (solver T c).2.2)
    (hT : low < high) (L S : List (ℝ × ℝ)) (h : plotEquilibrium true solver low high guess = some (L, S)) :
    (∀ p ∈ L, ∃ b, Comp p.1 ∧ Comp b ∧ low ≤ p.2 ∧ p.2 < high ∧ Eq p.2 p.1 b) ∧
    (∀ p ∈ S, ∃ a, Comp p.1 ∧ Comp a ∧ low ≤ p.2 ∧ p.2 < high ∧ Eq p.2 a p.1) := by
  obtain ⟨h1, h2⟩ := c141_binary_table_partial solver low high guess hT
  have hg : ∀ k < 50, Good solver low high guess k := by
    by_contra hn
    push Not at hn
    rw [h2 hn] at h
    cases h
  obtain ⟨L', S', e, _, _, hL, hS, _, _⟩ := h1 hg
  rw [e, Option.some.injEq, Prod.mk.injEq] at h
  obtain ⟨rfl, rfl⟩ := h
  have hEq : ∀ k, (pass solver (temperature low high) guess k).1 = true →
      Eq (temperature low high k) (cl solver low high guess k) (cs solver low high guess k) := fun k hk => by
    cases k with
    | zero => exact hsound _ _ hk
    | succ k => exact hsound _ _ hk
  have hr : ∀ k < 50, low ≤ temperature low high k ∧ temperature low high k < high := fun k hk => by
    unfold temperature
    simp only
    have h0 : (0 : ℝ) ≤ k := Nat.cast_nonneg k
    have h1 : (k : ℝ) < 50 := by exact_mod_cast hk
    have h2 : 0 < (high - low) / 50 := by linarith
    constructor
    · have := mul_nonneg h0 h2.le; linarith
    · have := mul_lt_mul_of_pos_right h1 h2
      have h3 : 50 * ((high - low) / 50) = high - low := by ring
      linarith
  constructor
  · intro p hp
    obtain ⟨k, hk, rfl⟩ := hL p hp
    exact ⟨_, (hg k hk).2.1, (hg k hk).2.2, (hr k hk).1, (hr k hk).2, hEq k (hg k hk).1⟩
  · intro p hp
    obtain ⟨k, hk, rfl⟩ := hS p hp
    exact ⟨_, (hg k hk).2.2, (hg k hk).2.1, (hr k hk).1, (hr k hk).2, hEq k (hg k hk).1⟩

/-- **C141** violated: a block of the file lists all fifty temperatures exactly if no composition occurs twice; for a phase whose
composition does not change over the range (a line compound, a pure solid) it has one line only. -/
theorem c141_violation_repeated_composition (hT : low < high) (L S : List (ℝ × ℝ)) (h : plotEquilibrium true solver low high guess = some (L, S)) :
    (Complete (temperature low high) (cs solver low high guess) S ↔
      ∀ j < 50, ∀ k < 50, j ≠ k → cs solver low high guess j ≠ cs solver low high guess k) ∧
    (Complete (temperature low high) (cl solver low high guess) L ↔
      ∀ j < 50, ∀ k < 50, j ≠ k → cl solver low high guess j ≠ cl solver low high guess k) ∧
    ((∀ k < 50, cs solver low high guess k = cs solver low high guess 0) → S = [(cs solver low high guess 0, low)]) := by
  obtain ⟨h1, h2⟩ := c141_binary_table_partial solver low high guess hT
  have hg : ∀ k < 50, Good solver low high guess k := by
    by_contra hn
    push Not at hn
    rw [h2 hn] at h
    cases h
  obtain ⟨L', S', e, _, hsS, hL, hS, hL', hS'⟩ := h1 hg
  rw [e, Option.some.injEq, Prod.mk.injEq] at h
  obtain ⟨rfl, rfl⟩ := h
  have key : ∀ c : ℕ → ℝ, (∀ k < 50, ∀ j < k, c j ≠ c k) ↔ ∀ j < 50, ∀ k < 50, j ≠ k → c j ≠ c k := fun c => by
    constructor
    · intro h j hj k hk hjk
      rcases lt_or_gt_of_ne hjk with g | g
      · exact h k hk j g
      · exact (h j hj k g).symm
    · exact fun h k hk j hj => h j (hj.trans hk) k hk hj.ne
  refine ⟨?_, ?_, ?_⟩
  · rw [← key]
    exact ⟨fun h k hk => (hS' k hk).1 (h k hk), fun h k hk => (hS' k hk).2 (h k hk)⟩
  · rw [← key]
    exact ⟨fun h k hk => (hL' k hk).1 (h k hk), fun h k hk => (hL' k hk).2 (h k hk)⟩
  · intro hc
    have t0 : temperature low high 0 = low := by unfold temperature; simp
    have m0 := (hS' 0 (by norm_num)).2 (fun j hj => absurd hj (Nat.not_lt_zero j))
    rw [t0] at m0
    have hall : ∀ p ∈ S', p.1 = cs solver low high guess 0 := fun p hp => by
      obtain ⟨k, hk, rfl⟩ := hS p hp
      exact hc k hk
    match S', hsS, m0, hall with
    | [], _, m0, _ => cases m0
    | [p], _, m0, _ => rw [List.mem_singleton] at m0; rw [m0]
    | p :: q :: r, hs, _, hall =>
      rw [List.pairwise_cons] at hs
      have := hs.1 q (by simp)
      rw [hall p (by simp), hall q (by simp)] at this
      exact absurd this (lt_irrefl _)

/-- **C141** violated: one failure leaves no table at all (the points found below it are lost), the upper end of the requested range is
never tabulated, and an input without a block `NewtonSolver`, with which a run is content, stops the program. -/
theorem c141_violation_range (hT : low < high) :
    (∀ k < 50, ¬Good solver low high guess k → plotEquilibrium true solver low high guess = none) ∧
    (∀ L S, plotEquilibrium true solver low high guess = some (L, S) → ∀ p ∈ L ++ S, p.2 ≤ high - (high - low) / 50) ∧
    plotEquilibrium false solver low high guess = none := by
  obtain ⟨h1, h2⟩ := c141_binary_table_partial solver low high guess hT
  refine ⟨fun k hk h => h2 ⟨k, hk, h⟩, fun L S h => ?_, rfl⟩
  have hg : ∀ k < 50, Good solver low high guess k := by
    by_contra hn
    push Not at hn
    rw [h2 hn] at h
    cases h
  obtain ⟨L', S', e, _, _, hL, hS, _, _⟩ := h1 hg
  rw [e, Option.some.injEq, Prod.mk.injEq] at h
  obtain ⟨rfl, rfl⟩ := h
  have hr : ∀ k < 50, temperature low high k ≤ high - (high - low) / 50 := fun k hk => by
    unfold temperature
    simp only
    have h1 : (k : ℝ) ≤ 49 := by exact_mod_cast Nat.lt_succ_iff.1 hk
    have h2 : 0 < (high - low) / 50 := by linarith
    have := mul_le_mul_of_nonneg_right h1 h2.le
    linarith
  intro p hp
  rcases List.mem_append.1 hp with hp | hp
  · obtain ⟨k, hk, rfl⟩ := hL p hp; exact hr k hk
  · obtain ⟨k, hk, rfl⟩ := hS p hp; exact hr k hk

end Binary

/-! ## Ternary -/

section Ternary

variable (solver : Solver Tie) (low high : ℝ) (guess : Tie)

/-- Tie line of pass `k`. -/
noncomputable def tie (k : ℕ) : Tie := (pass solver (temperature low high) guess k).2

/-- What the ternary program asks of pass `k`. -/
def Good3 (k : ℕ) : Prop :=
  (pass solver (temperature low high) guess k).1 = true ∧ Comp (tie solver low high guess k).l0 ∧ Comp (tie solver low high guess k).l1

/-- Tables after `k` passes. -/
noncomputable def tables (k : ℕ) : Tables where
  l0 := table (temperature low high) (fun k => (tie solver low high guess k).l0) k
  l1 := table (temperature low high) (fun k => (tie solver low high guess k).l1) k
  s0 := table (temperature low high) (fun k => (tie solver low high guess k).s0) k
  s1 := table (temperature low high) (fun k => (tie solver low high guess k).s1) k

theorem sweepTernary_eq (n k : ℕ) (c : Tie) (hc : solver (temperature low high k) c = pass solver (temperature low high) guess k) :
    ((∀ j, k ≤ j → j < k + n → Good3 solver low high guess j) →
      sweepTernary solver low high n k c (tables solver low high guess k) = some (tables solver low high guess (k + n))) ∧
    ((∃ j, k ≤ j ∧ j < k + n ∧ ¬Good3 solver low high guess j) →
      sweepTernary solver low high n k c (tables solver low high guess k) = none) := by
  induction n generalizing k c with
  | zero =>
    refine ⟨fun _ => rfl, ?_⟩
    rintro ⟨j, h1, h2, _⟩; omega
  | succ n ih =>
    obtain ⟨i1, i2⟩ := ih (k + 1) (pass solver (temperature low high) guess k).2 rfl
    have hg : accept (pass solver (temperature low high) guess k).1 (pass solver (temperature low high) guess k).2.l0
        (pass solver (temperature low high) guess k).2.l1 = true ↔ Good3 solver low high guess k := accept_iff _ _ _
    rw [sweepTernary]
    simp only [hc]
    constructor
    · intro h
      rw [if_pos (hg.2 (h k le_rfl (by omega))), show k + (n + 1) = k + 1 + n by omega]
      exact i1 fun j h1 h2 => h j (by omega) (by omega)
    · rintro ⟨j, h1, h2, h3⟩
      by_cases hk : Good3 solver low high guess k
      · rw [if_pos (hg.2 hk)]
        refine i2 ⟨j, ?_, by omega, h3⟩
        rcases Nat.eq_or_lt_of_le h1 with rfl | h
        · exact absurd hk h3
        · exact h
      · rw [if_neg (fun h => hk (hg.1 h))]

/-- **C141**: the tables of a ternary alloy, ordered by temperature, hold each of the fifty temperatures once with the compositions found
there. -/
theorem c141_ternary_table (hT : low < high) (hg : ∀ k < 50, Good3 solver low high guess k) :
    ∃ t, plotTernary true solver low high guess = some t ∧
      (∀ p, p ∈ t.l0 ↔ ∃ k < 50, p = (temperature low high k, (tie solver low high guess k).l0)) ∧
      (∀ p, p ∈ t.l1 ↔ ∃ k < 50, p = (temperature low high k, (tie solver low high guess k).l1)) ∧
      (∀ p, p ∈ t.s0 ↔ ∃ k < 50, p = (temperature low high k, (tie solver low high guess k).s0)) ∧
      (∀ p, p ∈ t.s1 ↔ ∃ k < 50, p = (temperature low high k, (tie solver low high guess k).s1)) ∧
      t.l0.Pairwise (fun p q => p.1 < q.1) ∧ t.l1.Pairwise (fun p q => p.1 < q.1) ∧
      t.s0.Pairwise (fun p q => p.1 < q.1) ∧ t.s1.Pairwise (fun p q => p.1 < q.1) := by
  have e := (sweepTernary_eq solver low high guess 50 0 guess rfl).1 fun j _ hj => hg j (by omega)
  have key : ∀ val : ℕ → ℝ, ∀ p, p ∈ table (temperature low high) val (0 + 50) ↔ ∃ k < 50, p = (temperature low high k, val k) := fun val p => by
    rw [(table_spec _ _ _).2]
    constructor
    · rintro ⟨k, hk, e, _⟩; exact ⟨k, by omega, e⟩
    · rintro ⟨k, hk, e⟩
      exact ⟨k, by omega, e, fun j hj he => hj.ne (temperature_inj hT he)⟩
  have sorted : ∀ val : ℕ → ℝ, (table (temperature low high) val (0 + 50)).Pairwise fun p q => p.1 < q.1 := fun val => (table_spec _ _ _).1
  refine ⟨tables solver low high guess (0 + 50), ?_, ?_, ?_, ?_, ?_, ?_, ?_, ?_, ?_⟩
  · rw [plotTernary, if_pos rfl]
    exact e
  all_goals
    unfold tables
    generalize 0 + 50 = n at key sorted
    simp only
    first | exact key _ | exact sorted _

/-- **C141** violated for the ternary program: whether a tie line is accepted does not depend on the compositions of the solid, so a
spurious root with a solid composition outside of [0, 1] is tabulated, which the binary program rejects; and compositions of the liquid
summing to more than one are accepted. -/
theorem c141_violation_ternary_unphysical (hT : low < high) (l0 l1 s0 s1 f : ℝ) (h0 : Comp l0) (h1 : Comp l1) :
    ∃ t, plotTernary true (fun _ _ => (true, ⟨l0, l1, s0, s1, f⟩)) low high guess = some t ∧
      (low, l0) ∈ t.l0 ∧ (low, l1) ∈ t.l1 ∧ (low, s0) ∈ t.s0 ∧ (low, s1) ∈ t.s1 := by
  have hp : ∀ k, pass (fun _ _ => (true, (⟨l0, l1, s0, s1, f⟩ : Tie))) (temperature low high) guess k = (true, ⟨l0, l1, s0, s1, f⟩) := fun k => by
    cases k <;> rfl
  have t0 : temperature low high 0 = low := by unfold temperature; simp
  obtain ⟨t, e, a, b, c, d, _⟩ := c141_ternary_table (fun _ _ => (true, ⟨l0, l1, s0, s1, f⟩)) low high guess hT (fun k _ => by
    unfold Good3 tie
    rw [hp]
    exact ⟨rfl, h0, h1⟩)
  refine ⟨t, e, (a _).2 ⟨0, by norm_num, ?_⟩, (b _).2 ⟨0, by norm_num, ?_⟩, (c _).2 ⟨0, by norm_num, ?_⟩, (d _).2 ⟨0, by norm_num, ?_⟩⟩
  all_goals
    unfold tie
    rw [hp, t0]

end Ternary

/-! ## Second derivatives and zeta -/

/-- Compositions in an equilibrium report, exit status included: the report shows the result of the solver exactly if it is acceptable. -/
theorem c141_equilibrium_report (solver : Solver (ℝ × ℝ)) (d2L d2S : ℝ → ℝ) (T : ℝ) (guess : ℝ × ℝ) :
    ∃ r, binaryEquilibrium true solver d2L d2S T guess = some r ∧
      (r.status = 0 ↔ (solver T guess).1 = true ∧ Comp (solver T guess).2.1 ∧ Comp (solver T guess).2.2) ∧
      (∀ c, r.ceq = some c ↔ r.status = 0 ∧ c = (solver T guess).2) ∧ (r.status = 0 → r.d2L = d2L (solver T guess).2.1) := by
  have h := accept_iff (solver T guess).1 (solver T guess).2.1 (solver T guess).2.2
  by_cases ha : accept (solver T guess).1 (solver T guess).2.1 (solver T guess).2.2 = true
  · refine ⟨⟨some (solver T guess).2, d2L (solver T guess).2.1, d2S (solver T guess).2.1, 0⟩, ?_, ⟨fun _ => h.1 ha, fun _ => rfl⟩, ?_, fun _ => rfl⟩
    · rw [binaryEquilibrium, if_pos rfl]; simp only; rw [if_pos ha]
    · intro c
      simp only [Option.some.injEq, true_and]
      exact eq_comm
  · refine ⟨⟨none, d2L (solver T guess).2.1, d2S (solver T guess).2.1, 1⟩, ?_, ⟨fun h' => ?_, fun h' => absurd (h.2 h') ha⟩, ?_, fun _ => rfl⟩
    · rw [binaryEquilibrium, if_pos rfl]; simp only; rw [if_neg ha]
    · exact absurd h' (by norm_num)
    · intro c
      simp

/-- **C141** violated: the second derivative printed for the solid is taken at the composition of the liquid.  For ideal solutions
(`f'' = RT/(c(1-c))` in both phases) the two printed numbers are always equal, and the one of the solid is right only if both phases have
the same composition or mirrored ones. -/
theorem c141_violation_solid_curvature (solver : Solver (ℝ × ℝ)) (d2L d2S : ℝ → ℝ) (T : ℝ) (guess : ℝ × ℝ) (r : Report)
    (h : binaryEquilibrium true solver d2L d2S T guess = some r) (c : ℝ × ℝ) (hc : r.ceq = some c) :
    (r.d2S = d2S c.2 ↔ d2S c.1 = d2S c.2) ∧
    ((∀ x, d2S x = 8.314 * T / (x * (1 - x))) → 0 < T → 0 < c.1 → c.1 < 1 → 0 < c.2 → c.2 < 1 →
      (r.d2S = d2S c.2 ↔ c.1 = c.2 ∨ c.1 + c.2 = 1)) := by
  have e : r.d2S = d2S c.1 := by
    rw [binaryEquilibrium, if_pos rfl] at h
    simp only at h
    split_ifs at h with ha
    all_goals
      rw [Option.some.injEq] at h
      subst h
    · simp only [Option.some.injEq] at hc
      rw [← hc]
    · cases hc
  rw [e]
  refine ⟨Iff.rfl, fun hd hT h1 h2 h3 h4 => ?_⟩
  rw [hd, hd]
  have p1 : 0 < c.1 * (1 - c.1) := mul_pos h1 (by linarith)
  have p2 : 0 < c.2 * (1 - c.2) := mul_pos h3 (by linarith)
  rw [div_eq_div_iff p1.ne' p2.ne']
  have hf : (8.314 : ℝ) * T ≠ 0 := by positivity
  constructor
  · intro g
    have g := mul_left_cancel₀ hf g
    have : (c.1 - c.2) * (c.1 + c.2 - 1) = 0 := by linarith [g, show (c.1 - c.2) * (c.1 + c.2 - 1) = c.2 * (1 - c.2) - c.1 * (1 - c.1) by ring]
    rcases mul_eq_zero.1 this with g | g
    · exact Or.inl (by linarith)
    · exact Or.inr (by linarith)
  · rintro (g | g)
    · rw [g]
    · have : c.1 = 1 - c.2 := by linarith
      rw [this]; ring

/-- **C141**: the printed zeta, times 1e-6 over the molar volume, is the value with which a run without a zeta polynomial forms its
mobility at that temperature, for the same equilibrium and diffusion data. -/
theorem c141_zeta_of_run (solver : Solver (ℝ × ℝ)) (d2L : ℝ → ℝ) (R D Q0 T mv : ℝ) (guess : ℝ × ℝ) (z : Alloy.Zeta) (hz : z.tref < 0)
    (d2 cl cs : ℕ → ℝ) (hcl : cl 0 = (solver T guess).2.1) (hcs : cs 0 = (solver T guess).2.2) (hd : d2 0 = d2L (cl 0))
    (hfound : (solver T guess).1 = true ∧ Comp (cl 0) ∧ Comp (cs 0)) :
    Alloy.zetaFactor z 1 R D Q0 mv T d2 cl cs = some ((zetaFactor solver d2L R D Q0 T guess).zeta * (1.0e-6 / mv)) := by
  rw [hcl, hcs] at hfound
  have ha := (accept_iff _ _ _).2 hfound
  unfold Alloy.zetaFactor Alloy.Zeta.eval zetaFactor
  rw [if_pos hz, if_pos (by norm_num), if_pos (by intro i hi j hj; omega)]
  simp only [Finset.sum_range_one, Nat.mul_zero, Nat.add_zero]
  rw [ha, if_pos rfl, hd, hcl, hcs]

/-- **C141** violated: when no equilibrium is found the program still prints a zeta, always 0 (an infinite mobility if it is put into
an input file), and ends with the status of success. -/
theorem c141_violation_zeta_of_failure (solver : Solver (ℝ × ℝ)) (d2L : ℝ → ℝ) (R D Q0 T : ℝ) (guess : ℝ × ℝ)
    (h : ¬((solver T guess).1 = true ∧ Comp (solver T guess).2.1 ∧ Comp (solver T guess).2.2)) :
    (zetaFactor solver d2L R D Q0 T guess).zeta = 0 ∧ (zetaFactor solver d2L R D Q0 T guess).status = 0 ∧
    (zetaFactor solver d2L R D Q0 T guess).ceq = none := by
  have ha : ¬accept (solver T guess).1 (solver T guess).2.1 (solver T guess).2.2 = true := fun g => h ((accept_iff _ _ _).1 g)
  unfold zetaFactor
  simp only
  rw [if_neg ha, if_neg ha]
  simp

/-! ## Examples -/

/-- A lens between 900 and 1400: liquidus and solidus linear in the temperature. -/
noncomputable def lens : Solver (ℝ × ℝ) := fun T _ => (true, ((T - 800) / 1000, (T - 900) / 1000))

/-- A table of fifty lines in both blocks. -/
example : ∃ L S, plotEquilibrium true lens 900 1400 (0, 0) = some (L, S) ∧ Complete (temperature 900 1400) (cl lens 900 1400 (0, 0)) L ∧
    Complete (temperature 900 1400) (cs lens 900 1400 (0, 0)) S := by
  have hT : (900 : ℝ) < 1400 := by norm_num
  have hp : ∀ k, pass lens (temperature 900 1400) (0, 0) k
      = (true, ((temperature 900 1400 k - 800) / 1000, (temperature 900 1400 k - 900) / 1000)) := fun k => by cases k <;> rfl
  have ht : ∀ k, temperature 900 1400 k = 900 + 10 * k := fun k => by unfold temperature; norm_num; ring
  obtain ⟨h1, _⟩ := c141_binary_table_partial lens 900 1400 (0, 0) hT
  obtain ⟨L, S, e, _⟩ := h1 fun k hk => by
    have a : (0 : ℝ) ≤ k := Nat.cast_nonneg k
    have b : (k : ℝ) < 50 := by exact_mod_cast hk
    unfold Good cl cs Comp
    rw [hp]
    simp only [ht, true_and]
    refine ⟨⟨?_, ?_⟩, ?_, ?_⟩ <;> linarith
  obtain ⟨a, b, _⟩ := c141_violation_repeated_composition lens 900 1400 (0, 0) hT L S e
  refine ⟨L, S, e, b.2 fun j _ k _ hjk h => hjk ?_, a.2 fun j _ k _ hjk h => hjk ?_⟩
  · unfold cl at h
    rw [hp, hp] at h
    exact temperature_inj hT (by simp only at h; linarith)
  · unfold cs at h
    rw [hp, hp] at h
    exact temperature_inj hT (by simp only at h; linarith)

/-- A pure solid: its block has one line. -/
example : ∃ L, plotEquilibrium true (fun T _ => (true, ((T - 800) / 1000, 0))) 900 1400 (0, 0) = some (L, [(0, 900)]) := by
  have hT : (900 : ℝ) < 1400 := by norm_num
  have hp : ∀ k, pass (fun T _ => (true, ((T - 800) / 1000, (0 : ℝ)))) (temperature 900 1400) ((0, 0) : ℝ × ℝ) k
      = (true, ((temperature 900 1400 k - 800) / 1000, 0)) := fun k => by cases k <;> rfl
  have ht : ∀ k, temperature 900 1400 k = 900 + 10 * k := fun k => by unfold temperature; norm_num; ring
  obtain ⟨h1, _⟩ := c141_binary_table_partial (fun T _ => (true, ((T - 800) / 1000, 0))) 900 1400 (0, 0) hT
  obtain ⟨L, S, e, _⟩ := h1 fun k hk => by
    have a : (0 : ℝ) ≤ k := Nat.cast_nonneg k
    have b : (k : ℝ) < 50 := by exact_mod_cast hk
    unfold Good cl cs Comp
    rw [hp]
    simp only [ht, true_and]
    refine ⟨⟨?_, ?_⟩, ?_, ?_⟩ <;> linarith
  have hc : ∀ k, cs (fun T _ => (true, ((T - 800) / 1000, 0))) 900 1400 (0, 0) k = 0 := fun k => by unfold cs; rw [hp]
  obtain ⟨_, _, c⟩ := c141_violation_repeated_composition (fun T _ => (true, ((T - 800) / 1000, 0))) 900 1400 (0, 0) hT L S e
  have := c fun k _ => by rw [hc, hc]
  rw [hc] at this
  exact ⟨L, by rw [e, this]⟩

/-- Liquid 0.3, solid 0.1: the printed curvature of the solid is not that of the solid. -/
example : ∃ r, binaryEquilibrium true (fun _ _ => (true, (3 / 10, 1 / 10))) (fun x => 8.314 * 1000 / (x * (1 - x))) (fun x => 8.314 * 1000 / (x * (1 - x)))
    1000 (0, 0) = some r ∧ r.d2S ≠ 8.314 * 1000 / ((1 / 10 : ℝ) * (1 - 1 / 10)) := by
  obtain ⟨r, e, h1, h2, _⟩ := c141_equilibrium_report (fun _ _ => (true, (3 / 10, 1 / 10))) (fun x => 8.314 * 1000 / (x * (1 - x)))
    (fun x => 8.314 * 1000 / (x * (1 - x))) 1000 (0, 0)
  refine ⟨r, e, ?_⟩
  have hs := h1.2 ⟨rfl, ⟨by norm_num, by norm_num⟩, by norm_num, by norm_num⟩
  have := (c141_violation_solid_curvature _ _ _ _ _ r e (3 / 10, 1 / 10) ((h2 _).2 ⟨hs, rfl⟩)).2 (fun x => rfl) (by norm_num) (by norm_num) (by norm_num)
    (by norm_num) (by norm_num)
  intro g
  rcases this.1 g with g | g <;> norm_num at g

end AMPE.Drivers.Props
