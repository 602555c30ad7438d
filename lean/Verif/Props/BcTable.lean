import Verif.Model.BcTable
import Mathlib.Tactic.Linarith
import Mathlib.Tactic.Ring
import Mathlib.Tactic.NormNum
import Mathlib.Tactic.FieldSimp

/-! # C44: time-dependent boundary values -/

namespace AMPE.BcTable.Props

open AMPE.BcTable

/-- Times strictly increase along the table. -/
def Increasing (tab : List Entry) : Prop :=
  ∀ (i j : ℕ) (hi : i < tab.length) (hj : j < tab.length), i < j → (tab[i]).t < (tab[j]).t

/-- `v` is the piecewise-linear interpolation at `time` of the values `f` of the table, between entries `k` and `k+1`. -/
def Interp (tab : List Entry) (f : Entry → ℝ) (time : ℝ) (k : ℕ) (v : ℝ) : Prop :=
  ∃ (h : k + 1 < tab.length), (tab[k]).t ≤ time ∧ time < (tab[k + 1]).t ∧
    v = f (tab[k]) + (time - (tab[k]).t) / ((tab[k + 1]).t - (tab[k]).t) * (f (tab[k + 1]) - f (tab[k]))

theorem scan_some (tab : List Entry) (time : ℝ) (s k : ℕ) :
    scan tab time s = some k ↔ s ≤ k ∧ (∃ h : k < tab.length, time < (tab[k]).t) ∧
      ∀ (j : ℕ) (hj : j < tab.length), s ≤ j → j < k → (tab[j]).t ≤ time := by
  induction hn : tab.length - s generalizing s with
  | zero =>
    rw [scan]
    have : ¬ s < tab.length := by omega
    rw [dif_neg this]
    constructor
    · intro h; simp at h
    · rintro ⟨h1, ⟨h2, _⟩, _⟩; omega
  | succ n ih =>
    rw [scan]
    have hs : s < tab.length := by omega
    rw [dif_pos hs]
    split
    · next hle =>
      rw [ih (s + 1) (by omega)]
      constructor
      · rintro ⟨h1, h2, h3⟩
        refine ⟨by omega, h2, fun j hj h4 h5 => ?_⟩
        rcases Nat.eq_or_lt_of_le h4 with rfl | h6
        · exact hle
        · exact h3 j hj h6 h5
      · rintro ⟨h1, ⟨h2, h2'⟩, h3⟩
        refine ⟨?_, ⟨h2, h2'⟩, fun j hj h4 h5 => h3 j hj (by omega) h5⟩
        rcases Nat.eq_or_lt_of_le h1 with rfl | h6
        · exact absurd hle (not_le.2 h2')
        · exact h6
    · next hnle =>
      rw [not_le] at hnle
      constructor
      · intro h
        have := Option.some.inj h
        subst this
        exact ⟨le_refl _, ⟨hs, hnle⟩, fun j _ h1 h2 => by omega⟩
      · rintro ⟨h1, ⟨h2, h2'⟩, h3⟩
        rcases Nat.eq_or_lt_of_le h1 with rfl | h6
        · rfl
        · exact absurd (h3 s hs (le_refl _) h6) (not_le.2 hnle)

theorem scan_none (tab : List Entry) (time : ℝ) (s : ℕ) :
    scan tab time s = none ↔ ∀ (j : ℕ) (hj : j < tab.length), s ≤ j → (tab[j]).t ≤ time := by
  induction hn : tab.length - s generalizing s with
  | zero =>
    rw [scan]
    have : ¬ s < tab.length := by omega
    rw [dif_neg this]
    refine ⟨fun _ j hj h => by omega, fun _ => rfl⟩
  | succ n ih =>
    rw [scan]
    have hs : s < tab.length := by omega
    rw [dif_pos hs]
    split
    · next hle =>
      rw [ih (s + 1) (by omega)]
      constructor
      · intro h j hj h1
        rcases Nat.eq_or_lt_of_le h1 with rfl | h6
        · exact hle
        · exact h j hj h6
      · intro h j hj h1
        exact h j hj (by omega)
    · next hnle => exact ⟨fun h => by simp at h, fun h => absurd (h s hs (le_refl _)) hnle⟩

theorem start_pos (s : ℕ) : 1 ≤ start s := by unfold start; omega

/-- **C44**, the three cases of a call, for every table with increasing times, every requested time and every value of the
static slot. A call returns values exactly when the search start lies inside the table, the time is not before the entry
just below the search start, and it is strictly before the last time; the values are then the linear interpolation
between the two neighbouring entries, and the slot becomes the lower one. -/
theorem c44_values (tab : List Entry) (hinc : Increasing tab) (time : ℝ) (slot : ℕ) (a b g : ℝ) (k : ℕ) :
    setBcCoefs tab time slot = .values a b g k ↔
      start slot ≤ k + 1 ∧ Interp tab Entry.a time k a ∧ Interp tab Entry.b time k b ∧ Interp tab Entry.g time k g := by
  have hst := start_pos slot
  have weights : ∀ (p n : Entry) (f : Entry → ℝ), p.t < n.t →
      1 / (n.t - p.t) * (n.t - time) * f p + 1 / (n.t - p.t) * (time - p.t) * f n =
        f p + (time - p.t) / (n.t - p.t) * (f n - f p) := by
    intro p n f h
    have : n.t - p.t ≠ 0 := by intro h0; linarith
    field_simp
    ring
  unfold setBcCoefs
  constructor
  · intro h
    split at h
    · simp at h
    · next k' hk' =>
      rw [scan_some] at hk'
      obtain ⟨h1, ⟨h2, h3⟩, h4⟩ := hk'
      have e : k' - 1 + 1 = k' := by omega
      simp only [e] at h
      split at h
      · next p n hp hn =>
        rw [List.getElem?_eq_some_iff] at hp hn
        obtain ⟨hp1, rfl⟩ := hp
        obtain ⟨hn1, rfl⟩ := hn
        split at h
        · simp at h
        · next hc =>
          push Not at hc
          injection h with ha hb hg hk
          subst hk
          have hlt : (tab[k' - 1]).t < (tab[k']).t := hinc _ _ hp1 hn1 (by omega)
          refine ⟨by omega, ?_, ?_, ?_⟩
          · refine ⟨by omega, hc.1, ?_, ?_⟩
            · simp only [e]; exact h3
            · simp only [e]; rw [← ha]; exact weights _ _ Entry.a hlt
          · refine ⟨by omega, hc.1, ?_, ?_⟩
            · simp only [e]; exact h3
            · simp only [e]; rw [← hb]; exact weights _ _ Entry.b hlt
          · refine ⟨by omega, hc.1, ?_, ?_⟩
            · simp only [e]; exact h3
            · simp only [e]; rw [← hg]; exact weights _ _ Entry.g hlt
      · simp at h
  · rintro ⟨h0, ⟨h1, h2, h3, ha⟩, ⟨_, _, _, hb⟩, ⟨_, _, _, hg⟩⟩
    have hk : scan tab time (start slot) = some (k + 1) := by
      rw [scan_some]
      refine ⟨h0, ⟨h1, h3⟩, fun j hj h4 h5 => ?_⟩
      rcases Nat.eq_or_lt_of_le (Nat.lt_succ_iff.1 h5) with rfl | h6
      · exact h2
      · exact ((hinc j k hj (by omega) h6).trans_le h2).le
    rw [hk]
    simp only [Nat.add_sub_cancel]
    rw [List.getElem?_eq_getElem (show k < tab.length by omega), List.getElem?_eq_getElem h1]
    simp only
    have hlt : (tab[k]).t < (tab[k + 1]).t := hinc _ _ (by omega) h1 (by omega)
    rw [if_neg (by push Not; exact ⟨h2, h3.le⟩), weights _ _ Entry.a hlt, weights _ _ Entry.b hlt,
      weights _ _ Entry.g hlt, ← ha, ← hb, ← hg]

/-- **C44**: a call is reported as an error exactly when the search start lies inside the table and the requested time is
before the entry just below the search start. -/
theorem c44_error (tab : List Entry) (hinc : Increasing tab) (time : ℝ) (slot : ℕ) :
    setBcCoefs tab time slot = .error ↔ ∃ h : start slot < tab.length, time < (tab[start slot - 1]).t := by
  have hst := start_pos slot
  unfold setBcCoefs
  constructor
  · intro h
    split at h
    · simp at h
    · next k' hk' =>
      rw [scan_some] at hk'
      obtain ⟨h1, ⟨h2, h3⟩, h4⟩ := hk'
      have e : k' - 1 + 1 = k' := by omega
      simp only [e] at h
      split at h
      · next p n hp hn =>
        rw [List.getElem?_eq_some_iff] at hp hn
        obtain ⟨hp1, rfl⟩ := hp
        obtain ⟨hn1, rfl⟩ := hn
        split at h
        · next hc =>
          rcases hc with hc | hc
          · refine ⟨by omega, ?_⟩
            rcases Nat.eq_or_lt_of_le h1 with h5 | h5
            · simp only [h5]; exact hc
            · exact absurd (h4 (k' - 1) hp1 (by omega) (by omega)) (not_le.2 hc)
          · exact absurd hc (not_lt.2 h3.le)
        · simp at h
      · simp at h
  · rintro ⟨h1, h2⟩
    have hk : scan tab time (start slot) = some (start slot) := by
      rw [scan_some]
      exact ⟨le_refl _, ⟨h1, h2.trans (hinc _ _ (by omega) h1 (by omega))⟩, fun j _ h3 h4 => by omega⟩
    rw [hk]
    have e : start slot - 1 + 1 = start slot := by omega
    simp only [e]
    rw [List.getElem?_eq_getElem (show start slot - 1 < tab.length by omega), List.getElem?_eq_getElem h1]
    simp only
    rw [if_pos (Or.inl h2)]

/-- **C44** is violated beyond the table: the vector is read past its end exactly when the search start is not inside the
table or the requested time is at or after the last time. -/
theorem c44_violation_undefined (tab : List Entry) (hinc : Increasing tab) (time : ℝ) (slot : ℕ) :
    setBcCoefs tab time slot = .undefined ↔
      tab.length ≤ start slot ∨ ∃ h : 0 < tab.length, (tab[tab.length - 1]).t ≤ time := by
  have hst := start_pos slot
  constructor
  · intro h
    by_contra hn
    push Not at hn
    obtain ⟨h1, h2⟩ := hn
    have h2' := h2 (by omega)
    unfold setBcCoefs at h
    split at h
    · next hk =>
      rw [scan_none] at hk
      have := hk (tab.length - 1) (by omega) (by omega)
      linarith
    · next k' hk' =>
      rw [scan_some] at hk'
      obtain ⟨h5, ⟨h6, h7⟩, h8⟩ := hk'
      have e : k' - 1 + 1 = k' := by omega
      simp only [e] at h
      rw [List.getElem?_eq_getElem (show k' - 1 < tab.length by omega), List.getElem?_eq_getElem h6] at h
      simp only at h
      split at h <;> simp at h
  · intro h
    have hk : scan tab time (start slot) = none := by
      rw [scan_none]
      intro j hj h1
      rcases h with h | ⟨h2, h⟩
      · omega
      · rcases Nat.eq_or_lt_of_le (show j ≤ tab.length - 1 by omega) with rfl | h3
        · exact h
        · exact ((hinc j _ hj (by omega) h3).trans_le h).le
    unfold setBcCoefs
    rw [hk]

/-- **C44** is violated by short tables: a table with a single entry is read past its end at every time. -/
theorem c44_violation_single (e : Entry) (time : ℝ) (slot : ℕ) : setBcCoefs [e] time slot = .undefined := by
  rw [c44_violation_undefined [e] (fun i j hi hj hij => by simp at hi hj; omega)]
  exact Or.inl (start_pos slot)

/-! ## Histories -/

theorem interp_exists (tab : List Entry) (f : Entry → ℝ) (time : ℝ) (n : ℕ) (hn : n < tab.length)
    (h1 : ∃ h : 0 < tab.length, (tab[0]).t ≤ time) (h2 : time < (tab[n]).t) : ∃ k v, k < n ∧ Interp tab f time k v := by
  induction n with
  | zero => obtain ⟨_, h1⟩ := h1; exact absurd h2 (not_lt.2 h1)
  | succ n ih =>
    by_cases h : time < (tab[n]).t
    · obtain ⟨k, v, hk, hv⟩ := ih (by omega) h
      exact ⟨k, v, by omega, hv⟩
    · exact ⟨n, _, by omega, hn, not_lt.1 h, h2, rfl⟩

/-- The time lies between the first time (included) and the last (excluded). -/
def Inside (tab : List Entry) (time : ℝ) : Prop :=
  ∃ h : 0 < tab.length, (tab[0]).t ≤ time ∧ time < (tab[tab.length - 1]).t

theorem interp_same (tab : List Entry) (hinc : Increasing tab) (f f' : Entry → ℝ) (time v v' : ℝ) (k k' : ℕ)
    (h : Interp tab f time k v) (h' : Interp tab f' time k' v') : k = k' := by
  obtain ⟨h1, h2, h3, _⟩ := h
  obtain ⟨h1', h2', h3', _⟩ := h'
  by_contra hne
  rcases Nat.lt_or_gt_of_ne hne with hlt | hlt
  · have : (tab[k + 1]).t ≤ (tab[k']).t := by
      rcases Nat.eq_or_lt_of_le hlt with rfl | h
      · exact le_refl _
      · exact (hinc _ _ h1 (by omega) h).le
    linarith
  · have : (tab[k' + 1]).t ≤ (tab[k]).t := by
      rcases Nat.eq_or_lt_of_le hlt with rfl | h
      · exact le_refl _
      · exact (hinc _ _ h1' (by omega) h).le
    linarith

/-- Index of the interval containing the time. -/
def InSlot (tab : List Entry) (time : ℝ) (k : ℕ) : Prop :=
  ∃ h : k + 1 < tab.length, (tab[k]).t ≤ time ∧ time < (tab[k + 1]).t

theorem inSlot_exists (tab : List Entry) (time : ℝ) (h : Inside tab time) : ∃ k, InSlot tab time k := by
  obtain ⟨h0, h1, h2⟩ := h
  obtain ⟨k, v, _, hk⟩ := interp_exists tab Entry.g time (tab.length - 1) (by omega) ⟨h0, h1⟩ h2
  obtain ⟨a, b, c, _⟩ := hk
  exact ⟨k, a, b, c⟩

theorem values_of_inSlot (tab : List Entry) (hinc : Increasing tab) (time : ℝ) (slot k : ℕ) (hk : InSlot tab time k)
    (hs : start slot ≤ k + 1) : ∃ a b g, setBcCoefs tab time slot = .values a b g k := by
  obtain ⟨h1, h2, h3⟩ := hk
  exact ⟨_, _, _, (c44_values tab hinc time slot _ _ _ k).2
    ⟨hs, ⟨h1, h2, h3, rfl⟩, ⟨h1, h2, h3, rfl⟩, ⟨h1, h2, h3, rfl⟩⟩⟩

/-- Interval indices along a history starting from interval `k` jump back by at most 11. -/
def SmallBackSteps (tab : List Entry) : ℕ → List ℝ → Prop
  | _, [] => True
  | k, τ :: τs => ∃ k', InSlot tab τ k' ∧ k ≤ k' + 11 ∧ SmallBackSteps tab k' τs

theorem run_history (tab : List Entry) (hinc : Increasing tab) (face : Fin 6) (τ : ℝ) (τs : List ℝ) (s : Slots)
    (h : SmallBackSteps tab (s face) (τs ++ [τ])) :
    ∃ s' k, (τs.map fun τ => (⟨tab, face, τ⟩ : Call)).foldlM after s = some s' ∧ InSlot tab τ k ∧ s' face ≤ k + 11 := by
  induction τs generalizing s with
  | nil =>
    obtain ⟨k', h1, h2, _⟩ := h
    exact ⟨s, k', rfl, h1, by omega⟩
  | cons x xs ih =>
    obtain ⟨k', hk', hle, hrest⟩ := h
    obtain ⟨a, b, g, hv⟩ := values_of_inSlot tab hinc x (s face) k' hk' (by unfold start; omega)
    have hafter : after s ⟨tab, face, x⟩ = some (Function.update s face k') := by
      unfold after
      simp only [hv]
    obtain ⟨s', k2, h1, h2, h3⟩ := ih (Function.update s face k') (by rw [Function.update_self]; exact hrest)
    refine ⟨s', k2, ?_, h2, h3⟩
    rw [List.map_cons, List.foldlM_cons, hafter]
    exact h1

/-- **C44** (one table): after any history of requested times inside the table whose interval index never jumps back by
more than 11, a further such request returns the linear interpolation of the table. -/
theorem c44_history_partial (tab : List Entry) (hinc : Increasing tab) (face : Fin 6) (τs : List ℝ) (τ : ℝ)
    (h : SmallBackSteps tab 0 (τs ++ [τ])) :
    ∃ s a b g k, run (τs.map fun τ => (⟨tab, face, τ⟩ : Call)) = some s ∧
      setBcCoefs tab τ (s face) = .values a b g k ∧ Interp tab Entry.a τ k a ∧ Interp tab Entry.b τ k b ∧
      Interp tab Entry.g τ k g := by
  obtain ⟨s, k, h1, h2, h3⟩ := run_history tab hinc face τ τs (fun _ => 0) h
  obtain ⟨a, b, g, hv⟩ := values_of_inSlot tab hinc τ (s face) k h2 (by unfold start; omega)
  exact ⟨s, a, b, g, k, h1, hv, ((c44_values tab hinc τ (s face) a b g k).1 hv).2⟩

/-- **C44**: times that never decrease are such a history, so a forward run reads its table correctly throughout. -/
theorem c44_forward (tab : List Entry) (hinc : Increasing tab) (τs : List ℝ) (hin : ∀ τ ∈ τs, Inside tab τ)
    (hmono : τs.Pairwise (· ≤ ·)) : SmallBackSteps tab 0 τs := by
  have gen : ∀ (k : ℕ) (t0 : ℝ), (k = 0 ∨ InSlot tab t0 k) → (∀ τ ∈ τs, k = 0 ∨ t0 ≤ τ) → SmallBackSteps tab k τs := by
    induction τs with
    | nil => intro _ _ _ _; trivial
    | cons τ τs ih =>
      intro k t0 hk hle
      rw [List.pairwise_cons] at hmono
      obtain ⟨k', hk'⟩ := inSlot_exists tab τ (hin τ (by simp))
      refine ⟨k', hk', ?_, ih (fun x hx => hin x (by simp [hx])) hmono.2 k' τ (Or.inr hk')
        fun x hx => Or.inr (hmono.1 x hx)⟩
      rcases hk with rfl | hk
      · omega
      · rcases hle τ (by simp) with rfl | hle
        · omega
        · obtain ⟨h1, h2, h3⟩ := hk
          obtain ⟨h1', h2', h3'⟩ := hk'
          by_contra hlt
          have : (tab[k' + 1]).t ≤ (tab[k]).t := by
            rcases Nat.eq_or_lt_of_le (show k' + 1 ≤ k by omega) with e | h
            · simp only [e]; exact le_refl _
            · exact (hinc _ _ h1' (by omega) h).le
          linarith
  exact gen 0 0 (Or.inl rfl) fun _ _ => Or.inl rfl

/-- **C44**: jumping back by 12 intervals or more is reported as an error (the slot being the one a previous call on the
same table left). -/
theorem c44_far_back (tab : List Entry) (hinc : Increasing tab) (τ0 τ : ℝ) (k k' : ℕ) (h0 : InSlot tab τ0 k)
    (h : InSlot tab τ k') (hfar : k' + 12 ≤ k) : setBcCoefs tab τ k = .error := by
  rw [c44_error tab hinc]
  obtain ⟨h1, _, _⟩ := h0
  obtain ⟨h1', h2', h3'⟩ := h
  refine ⟨by unfold start; omega, ?_⟩
  have hs : k' + 1 ≤ start k - 1 := by unfold start; omega
  rcases Nat.eq_or_lt_of_le hs with e | hlt
  · simp only [← e]; exact h3'
  · exact h3'.trans (hinc _ _ h1' (by unfold start; omega) hlt)

/-- **C44**: faces do not disturb each other. -/
theorem c44_faces (s s' : Slots) (c : Call) (h : after s c = some s') (f : Fin 6) (hf : f ≠ c.face) : s' f = s f := by
  unfold after at h
  split at h
  · have := Option.some.inj h
    rw [← this, Function.update_of_ne hf]
  · simp at h

/-- **C44** is violated when two objects share a face: the search position is a function-static, so after a call with
one object's table at interval `k`, a request inside another object's table reads past the end of that table whenever it
has at most `max (k-10) 1` entries, and is reported as an error whenever its interval lies more than 11 below `k`. -/
theorem c44_violation_shared (tab other : List Entry) (hinc : Increasing tab) (hinc' : Increasing other) (face : Fin 6)
    (s : Slots) (τ0 τ : ℝ) (k k' : ℕ) (h0 : InSlot tab τ0 k) (hs : start (s face) ≤ k + 1) (h : InSlot other τ k') :
    ∃ s', after s ⟨tab, face, τ0⟩ = some s' ∧
      (other.length ≤ max (k - 10) 1 → setBcCoefs other τ (s' face) = .undefined) ∧
      (max (k - 10) 1 < other.length → k' + 12 ≤ k → setBcCoefs other τ (s' face) = .error) := by
  obtain ⟨a, b, g, hv⟩ := values_of_inSlot tab hinc τ0 (s face) k h0 hs
  refine ⟨Function.update s face k, by unfold after; simp only [hv], ?_, ?_⟩
  · intro hlen
    rw [Function.update_self, c44_violation_undefined other hinc']
    exact Or.inl hlen
  · intro hlen hfar
    rw [Function.update_self, c44_error other hinc']
    obtain ⟨h1', h2', h3'⟩ := h
    refine ⟨hlen, ?_⟩
    have hs : k' + 1 ≤ start k - 1 := by unfold start; omega
    rcases Nat.eq_or_lt_of_le hs with e | hlt
    · simp only [← e]; exact h3'
    · exact h3'.trans (hinc' _ _ h1' (by unfold start at *; omega) hlt)

/-- A table `0, 1, ..., n` of constant values. -/
noncomputable def ramp (n : ℕ) : List Entry := (List.range (n + 1)).map fun (i : ℕ) => ⟨(i : ℝ), 1, 0, 0⟩

theorem ramp_inc (n : ℕ) : Increasing (ramp n) := by
  intro i j hi hj hij
  unfold ramp at hi hj ⊢
  simp only [List.getElem_map, List.getElem_range]
  exact_mod_cast hij

theorem ramp_slot (n k : ℕ) (hk : k < n) : InSlot (ramp n) (k : ℝ) k := by
  refine ⟨by unfold ramp; simp; omega, ?_, ?_⟩
  · unfold ramp; simp
  · unfold ramp; simp

example : Increasing (ramp 20) ∧ SmallBackSteps (ramp 20) 0 [(5 : ℕ), (17 : ℕ), (6 : ℕ)] :=
  ⟨ramp_inc 20, 5, ramp_slot 20 5 (by norm_num), by norm_num, 17, ramp_slot 20 17 (by norm_num), by norm_num, 6,
    ramp_slot 20 6 (by norm_num), by norm_num, trivial⟩

example : ∃ s', after (fun _ => 0) ⟨ramp 20, 0, (15 : ℕ)⟩ = some s' ∧
    setBcCoefs (ramp 2) (1 : ℕ) (s' 0) = .undefined ∧ InSlot (ramp 2) (1 : ℕ) 1 := by
  obtain ⟨s', h1, h2, _⟩ := c44_violation_shared (ramp 20) (ramp 2) (ramp_inc 20) (ramp_inc 2) 0 (fun _ => 0) (15 : ℕ)
    (1 : ℕ) 15 1 (ramp_slot 20 15 (by norm_num)) (by unfold start; norm_num) (ramp_slot 2 1 (by norm_num))
  exact ⟨s', h1, h2 (by unfold ramp; simp), ramp_slot 2 1 (by norm_num)⟩

/-! ## Table contents -/

theorem filterMap_range (f : ℕ → Option Entry) (n : ℕ) (h : ∀ j, j < n → (f j).isSome) :
    ∀ j (_ : j < n), ∃ hl : j < ((List.range n).filterMap f).length, f j = some (((List.range n).filterMap f)[j]) := by
  have e : ∀ n, (∀ j, j < n → (f j).isSome) → ((List.range n).filterMap f).length = n ∧
      ∀ j, j < n → ((List.range n).filterMap f)[j]? = f j := by
    intro n
    induction n with
    | zero => intro _; exact ⟨by simp, fun j hj => absurd hj (by omega)⟩
    | succ n ih =>
      intro h
      obtain ⟨h1, h2⟩ := ih fun j hj => h j (by omega)
      obtain ⟨x, hx⟩ := Option.isSome_iff_exists.1 (h n (by omega))
      rw [List.range_succ, List.filterMap_append]
      have e1 : List.filterMap f [n] = [x] := by simp [hx]
      rw [e1]
      refine ⟨by rw [List.length_append, h1]; rfl, fun j hj => ?_⟩
      rcases Nat.eq_or_lt_of_le (show j ≤ n by omega) with rfl | hlt
      · rw [List.getElem?_append_right (by omega), h1, Nat.sub_self, hx]; rfl
      · rw [List.getElem?_append_left (by omega)]; exact h2 j hlt
  obtain ⟨h1, h2⟩ := e n h
  intro j hj
  refine ⟨by omega, ?_⟩
  rw [← h2 j hj, List.getElem?_eq_getElem (by omega)]

/-- **C44**: the table read from a file is `time_0 .. time_{n-1}` where `n` is the first missing number; entries after a
gap in the numbering are silently ignored. -/
theorem c44_read (kind : Kind) (db : ℕ → Option (ℝ × ℝ)) (h : ∃ j, db j = none) :
    ∃ n, db n = none ∧ (∀ j, j < n → db j ≠ none) ∧
      ∀ j, j < n → ∃ (hl : j < (readTable kind db h).length) (x : ℝ × ℝ), db j = some x ∧
        (readTable kind db h)[j] = mkEntry kind x ∧ ((readTable kind db h)[j]).t = x.1 ∧ ((readTable kind db h)[j]).g = x.2 := by
  classical
  have hmin : ∀ j, j < Nat.find h → db j ≠ none := fun j hj => Nat.find_min h hj
  refine ⟨Nat.find h, Nat.find_spec h, hmin, fun j hj => ?_⟩
  obtain ⟨hl, he⟩ := filterMap_range (fun j => (db j).map (mkEntry kind)) (Nat.find h)
    (fun i hi => by
      obtain ⟨x, hx⟩ := Option.ne_none_iff_exists'.1 (hmin i hi)
      simp [hx]) j hj
  obtain ⟨x, hx⟩ := Option.ne_none_iff_exists'.1 (hmin j hj)
  rw [hx] at he
  have hl' : j < (readTable kind db h).length := by unfold readTable; convert hl
  have e : (readTable kind db h)[j] = mkEntry kind x := by
    simp only [Option.map_some, Option.some.injEq] at he
    unfold readTable
    rw [he]
    congr!
  refine ⟨hl', x, hx, e, ?_, ?_⟩ <;> rw [e] <;> cases kind <;> rfl

/-- **C44**: a `value` table always gives the Dirichlet condition `1·u + 0·∂u = g`, a `slope` table the Neumann condition
`0·u + 1·∂u = g`: interpolation does not disturb the type of the condition. -/
theorem c44_kind (kind : Kind) (tab : List Entry) (hinc : Increasing tab) (hk : ∀ e ∈ tab, ∃ x, e = mkEntry kind x)
    (time : ℝ) (slot k : ℕ) (a b g : ℝ) (h : setBcCoefs tab time slot = .values a b g k) :
    match kind with
    | .value => a = 1 ∧ b = 0
    | .slope => a = 0 ∧ b = 1 := by
  rw [c44_values tab hinc] at h
  obtain ⟨_, ⟨h1, _, _, ha⟩, ⟨_, _, _, hb⟩, _⟩ := h
  obtain ⟨x, hx⟩ := hk (tab[k]) (List.getElem_mem _)
  obtain ⟨y, hy⟩ := hk (tab[k + 1]) (List.getElem_mem _)
  rw [hx, hy] at ha hb
  cases kind <;> simp only [mkEntry] at ha hb ⊢ <;> constructor <;> linarith

/-- **C44**: rescaling multiplies every boundary value by the factor and nothing else. -/
theorem c44_rescale (c : ℝ) (tab : List Entry) (hinc : Increasing tab) (time : ℝ) (slot k : ℕ) (a b g : ℝ)
    (h : setBcCoefs tab time slot = .values a b g k) :
    setBcCoefs (rescale c tab) time slot = .values a b (c * g) k := by
  have hinc' : Increasing (rescale c tab) := by
    intro i j hi hj hij
    unfold rescale at hi hj ⊢
    simp only [List.getElem_map]
    rw [List.length_map] at hi hj
    exact hinc i j hi hj hij
  rw [c44_values tab hinc] at h
  rw [c44_values _ hinc']
  obtain ⟨h0, ⟨h1, h2, h3, ha⟩, ⟨_, _, _, hb⟩, ⟨_, _, _, hg⟩⟩ := h
  have hl : k + 1 < (rescale c tab).length := by unfold rescale; rw [List.length_map]; exact h1
  have e : ∀ (i : ℕ) (hi : i < tab.length) (hi' : i < (rescale c tab).length),
      (rescale c tab)[i] = ⟨(tab[i]).t, (tab[i]).a, (tab[i]).b, (tab[i]).g * c⟩ := by
    intro i hi hi'
    exact List.getElem_map ..
  have e1 := e k (by omega) (by omega)
  have e2 := e (k + 1) h1 hl
  refine ⟨h0, ⟨hl, ?_⟩, ⟨hl, ?_⟩, ⟨hl, ?_⟩⟩ <;> rw [e1, e2]
  · exact ⟨h2, h3, ha⟩
  · exact ⟨h2, h3, hb⟩
  · refine ⟨h2, h3, ?_⟩
    simp only
    rw [hg]
    ring

end AMPE.BcTable.Props
