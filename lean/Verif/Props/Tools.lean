import Verif.Model.Tools
import Mathlib.Tactic.Linarith
import Mathlib.Tactic.Ring

/-!
# C24, C25: coarsened labels and global gather lists
-/

namespace AMPE.Tools.Props

open AMPE.Tools

/-! ## C25 -/

/-- Prefix sums. -/
theorem disps_spec (rc : List ℕ) : disps rc = (List.range rc.length).map fun p => (rc.take p).sum := by
  unfold disps
  suffices h : ∀ n, n ≤ rc.length → (List.range n).foldl
      (fun d p => d ++ [if p = 0 then 0 else d.getD (p - 1) 0 + rc.getD (p - 1) 0]) [] =
      (List.range n).map fun p => (rc.take p).sum from h _ le_rfl
  intro n hn
  induction n with
  | zero => rfl
  | succ n ih =>
    rw [List.range_succ, List.foldl_append, ih (by omega), List.map_append]
    simp only [List.foldl_cons, List.foldl_nil, List.map_cons, List.map_nil]
    congr 2
    split_ifs with h0
    · simp [h0]
    · obtain ⟨m, rfl⟩ := Nat.exists_eq_succ_of_ne_zero h0
      have hm : m < rc.length := by omega
      simp only [Nat.succ_eq_add_one, Nat.add_sub_cancel]
      rw [List.getD_eq_getElem?_getD, List.getElem?_map, List.getElem?_range (by omega)]
      simp only [Option.map_some, Option.getD_some]
      rw [List.take_add_one, List.sum_append, List.getD_eq_getElem?_getD]
      simp [List.getElem?_eq_getElem hm]

theorem foldl_add_sum (l : List ℕ) (a : ℕ) : l.foldl (· + ·) a = a + l.sum := by
  induction l generalizing a with
  | nil => simp
  | cons x l ih => rw [List.foldl_cons, ih, List.sum_cons]; omega

theorem placeAll_spec {α : Type} (l : List α) : ∀ (pre : List (Option α)) (k : ℕ), l.length ≤ k →
    placeAll (pre ++ List.replicate k none) pre.length l =
      some (pre ++ l.map some ++ List.replicate (k - l.length) none) := by
  induction l with
  | nil => intro pre k _; simp [placeAll]
  | cons x l ih =>
    intro pre k hk
    obtain ⟨k, rfl⟩ : ∃ m, k = m + 1 := ⟨k - 1, by simp at hk; omega⟩
    simp only [List.length_cons] at hk
    have hset : (pre ++ List.replicate (k + 1) none).set pre.length (some x) =
        (pre ++ [some x]) ++ List.replicate k none := by
      rw [List.replicate_succ, List.set_append_right _ _ le_rfl]; simp
    simp only [placeAll, place]
    rw [if_pos (by simp), hset]
    have := ih (pre ++ [some x]) k (by omega)
    simp only [List.length_append, List.length_cons, List.length_nil, Nat.zero_add] at this
    simp only [Option.bind_some]
    rw [this]
    simp

theorem gather_loop {α : Type} (bufs pre : List (List α)) :
    ∀ (k : ℕ), (bufs.map List.length).sum ≤ k →
    (bufs.zip ((List.range' pre.length bufs.length).map
      fun p => (((pre ++ bufs).map List.length).take p).sum)).foldlM
        (fun out b => placeAll out b.2 b.1)
        (pre.flatten.map some ++ List.replicate k none) =
      some ((pre ++ bufs).flatten.map some ++ List.replicate (k - (bufs.map List.length).sum) none) := by
  induction bufs generalizing pre with
  | nil => intro k _; simp
  | cons b l ih =>
    intro k hk
    simp only [List.map_cons, List.sum_cons] at hk
    rw [List.length_cons, List.range'_succ, List.map_cons, List.zip_cons_cons, List.foldlM_cons]
    have hpos : (((pre ++ b :: l).map List.length).take pre.length).sum = (pre.flatten.map some : List (Option α)).length := by
      rw [List.map_append, List.take_append_of_le_length (by simp)]
      rw [List.take_of_length_le (by simp), List.length_map, List.length_flatten]
    simp only [hpos]
    rw [placeAll_spec b _ k (by omega)]
    have h2 := ih (pre ++ [b]) (k - b.length) (by omega)
    simp only [List.length_append, List.length_cons, List.length_nil, Nat.zero_add, List.append_assoc,
      List.cons_append, List.nil_append] at h2
    have e1 : (pre.flatten.map some ++ b.map some : List (Option α)) = (pre ++ [b]).flatten.map some := by
      simp
    simp only [Option.bind_eq_bind, Option.bind_some]
    rw [e1, h2]
    simp only [List.map_cons, List.sum_cons, Option.some.injEq]
    congr 2
    omega

/-- **C25**: if the announced size is the total number of entries, every rank ends up with the
concatenation of all buffers in rank order (no gaps, no overlap, no write outside the buffer). -/
theorem c25_gather {α : Type} (bufs : List (List α)) :
    allGatherv bufs (bufs.map List.length).sum = some (bufs.flatten.map some) := by
  unfold allGatherv
  simp only [foldl_add_sum, Nat.zero_add, ne_eq, not_true_eq_false, if_false]
  have h := gather_loop bufs [] (bufs.map List.length).sum le_rfl
  simp only [List.length_nil, List.nil_append, List.flatten_nil, List.map_nil, Nat.sub_self,
    List.replicate_zero, List.append_nil, ← List.range_eq_range'] at h
  rw [disps_spec, List.length_map]
  exact h

/-- **C25**: a rank's contribution is never lost: when its writes succeed, the receive buffer keeps its size
and holds every entry at `disp + i`. -/
theorem c25_all_written {α : Type} (l : List α) : ∀ (out out' : List (Option α)) (disp : ℕ),
    placeAll out disp l = some out' →
      out'.length = out.length ∧ (∀ i (h : i < l.length), out'[disp + i]? = some (some l[i])) ∧
        ∀ k, k < disp → out'[k]? = out[k]? := by
  induction l with
  | nil => intro out out' disp h; simp only [placeAll, Option.some.injEq] at h; subst h; simp
  | cons x l ih =>
    intro out out' disp h
    simp only [placeAll, place] at h
    by_cases hp : disp < out.length
    · rw [if_pos hp, Option.bind_some] at h
      obtain ⟨h1, h2, h3⟩ := ih _ _ _ h
      refine ⟨by rw [h1, List.length_set], ?_, ?_⟩
      · intro i hi
        cases i with
        | zero =>
          rw [Nat.add_zero, h3 disp (Nat.lt_succ_self _), List.getElem?_set_self hp]
          rfl
        | succ n =>
          have h4 := h2 n (by simp only [List.length_cons] at hi; omega)
          rw [show disp + (n + 1) = disp + 1 + n by omega, h4]
          rfl
      · intro k hk
        rw [h3 k (by omega), List.getElem?_set_ne (by omega)]
    · rw [if_neg hp] at h
      simp at h

/-- **C25**: any other announced size aborts. -/
theorem c25_gather_wrong_size {α : Type} (bufs : List (List α)) (n : ℕ) (h : (bufs.map List.length).sum ≠ n) :
    allGatherv bufs n = none := by
  unfold allGatherv
  simp only [foldl_add_sum, Nat.zero_add]
  rw [if_pos h]

/-- Specification: sum of the values listed under key `k`, over all ranks. -/
noncomputable def keySum (l : Entries) (k : ℤ) : ℝ := ((l.filter fun p => p.1 = k).map Prod.snd).sum

theorem fold_addTo (l : Entries) (m : IMap) :
    ((l.map fun p => some p.1).zip (l.map fun p => some p.2)).foldlM (fun m (p : Option ℤ × Option ℝ) =>
        match p with
        | (some n, some v) => some (addTo m n v)
        | _ => none) m = some (l.foldl (fun m p => addTo m p.1 p.2) m) := by
  induction l generalizing m with
  | nil => rfl
  | cons a l ih => simp only [List.map_cons, List.zip_cons_cons, List.foldlM_cons, List.foldl_cons,
      Option.bind_eq_bind, Option.bind_some, ih]

theorem addTo_fold_value (l : Entries) (m : IMap) (k : ℤ) :
    (l.foldl (fun m p => addTo m p.1 p.2) m) k =
      if (∃ p ∈ l, p.1 = k) ∨ (m k).isSome then some ((m k).getD 0 + keySum l k) else none := by
  induction l generalizing m with
  | nil => cases h : m k <;> simp [keySum, h]
  | cons a l ih =>
    rw [List.foldl_cons, ih]
    by_cases h : a.1 = k
    · have hm : addTo m a.1 a.2 k = some ((m k).getD 0 + a.2) := by simp [addTo, h]
      rw [hm]
      simp [h, keySum]
      ring
    · have hm : addTo m a.1 a.2 k = m k := by simp [addTo, Ne.symm h]
      rw [hm]
      have hf : keySum (a :: l) k = keySum l k := by simp [keySum, h]
      have hex : (∃ p ∈ a :: l, p.1 = k) ↔ ∃ p ∈ l, p.1 = k := by
        constructor
        · rintro ⟨p, hp, hk⟩
          rcases List.mem_cons.mp hp with rfl | hp
          · exact absurd hk h
          · exact ⟨p, hp, hk⟩
        · rintro ⟨p, hp, hk⟩; exact ⟨p, List.mem_cons_of_mem _ hp, hk⟩
      rw [hf]
      simp only [hex]

/-- **C25**: the global map holds, for every key present on some rank, the sum of its values over all
ranks (added to what the map held before), and nothing else; the gather never fails. -/
theorem c25_list_local_to_global (lcl : List Entries) (gbl : IMap) :
    ∃ m, listLocalToGlobal lcl gbl = some m ∧ ∀ k,
      m k = if (∃ e ∈ lcl, ∃ p ∈ e, p.1 = k) ∨ (gbl k).isSome
        then some ((gbl k).getD 0 + (lcl.map fun e => keySum e k).sum) else none := by
  have h1 := c25_gather (lcl.map fun e => e.map Prod.fst)
  have h2 := c25_gather (lcl.map fun e => e.map Prod.snd)
  have hs1 : ((lcl.map fun e => e.map Prod.fst).map List.length).sum = sumReduction (lcl.map List.length) := by
    simp [sumReduction, Function.comp_def]
  have hs2 : ((lcl.map fun e => e.map Prod.snd).map List.length).sum = sumReduction (lcl.map List.length) := by
    simp [sumReduction, Function.comp_def]
  rw [hs1] at h1
  rw [hs2] at h2
  have f1 : (lcl.map fun e => e.map Prod.fst).flatten.map some = lcl.flatten.map fun p => some p.1 := by
    rw [← List.map_flatten, List.map_map]; rfl
  have f2 : (lcl.map fun e => e.map Prod.snd).flatten.map some = lcl.flatten.map fun p => some p.2 := by
    rw [← List.map_flatten, List.map_map]; rfl
  refine ⟨lcl.flatten.foldl (fun m p => addTo m p.1 p.2) gbl, ?_, ?_⟩
  · unfold listLocalToGlobal
    simp only [h1, h2, Option.bind_some, f1, f2]
    exact fold_addTo _ _
  · intro k
    rw [addTo_fold_value]
    have e1 : (∃ p ∈ lcl.flatten, p.1 = k) ↔ ∃ e ∈ lcl, ∃ p ∈ e, p.1 = k := by
      simp only [List.mem_flatten]
      constructor
      · rintro ⟨p, ⟨e, he, hp⟩, hk⟩; exact ⟨e, he, p, hp, hk⟩
      · rintro ⟨e, he, p, hp, hk⟩; exact ⟨p, ⟨e, he, hp⟩, hk⟩
    have e2 : keySum lcl.flatten k = (lcl.map fun e => keySum e k).sum := by
      unfold keySum
      rw [List.filter_flatten, List.map_flatten, List.sum_flatten]
      simp [Function.comp_def]
    simp only [e1, e2]

/-! ## C24 -/

theorem minInt_fold (l : List ℤ) : ∀ c : ℤ, -1 ≤ c →
    let r := l.foldl (fun coarse f => if f ≥ 0 then (if coarse < 0 ∨ f < coarse then f else coarse) else coarse) c
    (∀ x ∈ l, 0 ≤ x → 0 ≤ r ∧ r ≤ x) ∧ (0 ≤ c → 0 ≤ r ∧ r ≤ c) ∧ (r = c ∨ (r ∈ l ∧ 0 ≤ r)) := by
  induction l with
  | nil => intro c _; simp
  | cons a l ih =>
    intro c hc
    simp only [List.foldl_cons]
    by_cases ha : a ≥ 0
    · simp only [if_pos ha]
      by_cases hlt : c < 0 ∨ a < c
      · simp only [if_pos hlt]
        obtain ⟨h1, h2, h3⟩ := ih a (by omega)
        refine ⟨?_, ?_, ?_⟩
        · intro x hx hx0
          rcases List.mem_cons.mp hx with rfl | hx
          · exact h2 hx0
          · exact h1 x hx hx0
        · intro hc0
          have := h2 ha
          omega
        · rcases h3 with h3 | h3
          · right; rw [h3]; exact ⟨List.mem_cons_self, ha⟩
          · right; exact ⟨List.mem_cons_of_mem _ h3.1, h3.2⟩
      · simp only [if_neg hlt]
        push Not at hlt
        obtain ⟨h1, h2, h3⟩ := ih c hc
        refine ⟨?_, h2, ?_⟩
        · intro x hx hx0
          rcases List.mem_cons.mp hx with rfl | hx
          · have := h2 hlt.1; omega
          · exact h1 x hx hx0
        · rcases h3 with h3 | h3
          · left; exact h3
          · right; exact ⟨List.mem_cons_of_mem _ h3.1, h3.2⟩
    · simp only [if_neg ha]
      obtain ⟨h1, h2, h3⟩ := ih c hc
      refine ⟨?_, h2, ?_⟩
      · intro x hx hx0
        rcases List.mem_cons.mp hx with rfl | hx
        · omega
        · exact h1 x hx hx0
      · rcases h3 with h3 | h3
        · left; exact h3
        · right; exact ⟨List.mem_cons_of_mem _ h3.1, h3.2⟩

/-- **C24**: the coarse label is -1 if no fine cell carries a valid label, and otherwise one of the
fine labels, the smallest valid one. -/
theorem c24_min (fine : List ℤ) :
    ((∀ x ∈ fine, x < 0) → minIntCoarsen fine = -1) ∧
    ((∃ x ∈ fine, 0 ≤ x) → minIntCoarsen fine ∈ fine ∧ 0 ≤ minIntCoarsen fine ∧
      ∀ x ∈ fine, 0 ≤ x → minIntCoarsen fine ≤ x) := by
  obtain ⟨h1, -, h3⟩ := minInt_fold fine (-1) le_rfl
  change (∀ x ∈ fine, 0 ≤ x → 0 ≤ minIntCoarsen fine ∧ minIntCoarsen fine ≤ x) at h1
  change minIntCoarsen fine = -1 ∨ (minIntCoarsen fine ∈ fine ∧ 0 ≤ minIntCoarsen fine) at h3
  constructor
  · intro h
    rcases h3 with h3 | h3
    · exact h3
    · have := h _ h3.1; omega
  · rintro ⟨x, hx, hx0⟩
    have := h1 x hx hx0
    rcases h3 with h3 | h3
    · omega
    · exact ⟨h3.1, this.1, fun y hy hy0 => (h1 y hy hy0).2⟩

/-- **C24**: the coarse label depends only on the set of fine labels, not on the iteration order. -/
theorem c24_order_independent (fine fine' : List ℤ) (h : ∀ x, x ∈ fine ↔ x ∈ fine') :
    minIntCoarsen fine = minIntCoarsen fine' := by
  by_cases hex : ∃ x ∈ fine, 0 ≤ x
  · have hex' : ∃ x ∈ fine', 0 ≤ x := by
      obtain ⟨x, hx, h0⟩ := hex; exact ⟨x, (h x).mp hx, h0⟩
    obtain ⟨a1, a2, a3⟩ := (c24_min fine).2 hex
    obtain ⟨b1, b2, b3⟩ := (c24_min fine').2 hex'
    exact le_antisymm (a3 _ ((h _).mpr b1) b2) (b3 _ ((h _).mp a1) a2)
  · push Not at hex
    rw [(c24_min fine).1 hex, (c24_min fine').1 fun x hx => hex x ((h x).mpr hx)]

example : minIntCoarsen [-1, 7, 3, -1, 5] = 3 := by decide
example : allGatherv [[1, 2], [], [3]] 3 = some [some 1, some 2, some 3] := by decide

end AMPE.Tools.Props
