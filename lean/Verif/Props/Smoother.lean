import Verif.Model.Smoother
import Mathlib.Tactic.Linarith
import Mathlib.Tactic.Ring
import Mathlib.Tactic.NormNum
import Mathlib.Tactic.FieldSimp
import Mathlib.Algebra.BigOperators.Group.List.Basic

/-! # C43: red-black smoothing; C59: spacing of the elliptic fluxes on refined levels -/

namespace AMPE.Smoother.Props

open AMPE.Smoother

/-! ## The two loops -/

theorem ioffset_nonneg (s off : ℤ) (hs : 0 ≤ s) : ioffset s off = if s % 2 = off then 0 else 1 := by
  have h : s - s.tdiv 2 * 2 = s % 2 := by rw [Int.tdiv_eq_ediv_of_nonneg hs]; lia
  unfold ioffset
  rw [h]
  by_cases hh : s % 2 = off <;> simp [hh]

theorem ioffset_even (s off : ℤ) (hs : s % 2 = 0) : ioffset s off = if s % 2 = off then 0 else 1 := by
  obtain ⟨k, rfl⟩ : ∃ k, s = 2 * k := ⟨s / 2, by lia⟩
  unfold ioffset
  rw [Int.mul_tdiv_cancel_left k (by norm_num)]
  rw [show 2 * k - k * 2 = 0 by ring, hs]
  by_cases hh : (0 : ℤ) = off <;> simp [hh]

theorem ioffset_negodd (s off : ℤ) (hs : s < 0) (ho : s % 2 = 1) (hoff : 0 ≤ off) : ioffset s off = 1 := by
  obtain ⟨k, rfl⟩ : ∃ k, s = -(2 * k + 1) := ⟨(-s - 1) / 2, by lia⟩
  have hk : 0 ≤ k := by lia
  unfold ioffset
  rw [Int.neg_tdiv, Int.tdiv_eq_ediv_of_nonneg (by lia), if_pos]
  lia

theorem mem_rowCells (a b o i : ℤ) : i ∈ rowCells a b o ↔ a + o ≤ i ∧ i ≤ b ∧ (i - (a + o)) % 2 = 0 := by
  unfold rowCells
  rw [List.mem_map]
  constructor
  · rintro ⟨k, hk, rfl⟩
    rw [List.mem_range] at hk
    by_cases hn : 0 ≤ b - (a + o) + 2
    · rw [Int.tdiv_eq_ediv_of_nonneg hn] at hk
      lia
    · exfalso
      have : (b - (a + o) + 2).tdiv 2 ≤ 0 := by
        obtain ⟨c, hc⟩ : ∃ c, b - (a + o) + 2 = -c := ⟨-(b - (a + o) + 2), by ring⟩
        rw [hc, Int.neg_tdiv, Int.tdiv_eq_ediv_of_nonneg (by lia)]
        lia
      lia
  · rintro ⟨h1, h2, h3⟩
    refine ⟨((i - (a + o)) / 2).toNat, ?_, ?_⟩
    · rw [List.mem_range, Int.tdiv_eq_ediv_of_nonneg (by lia)]
      lia
    · lia

theorem nodup_rowCells (a b o : ℤ) : (rowCells a b o).Nodup := by
  unfold rowCells
  refine List.Nodup.map ?_ List.nodup_range
  intro x y h
  simp only at h
  lia

theorem mem_rows (a b j : ℤ) : j ∈ rows a b ↔ a ≤ j ∧ j ≤ b := by
  unfold rows
  rw [List.mem_map]
  constructor
  · rintro ⟨k, hk, rfl⟩
    rw [List.mem_range] at hk
    lia
  · rintro ⟨h1, h2⟩
    exact ⟨(j - a).toNat, by rw [List.mem_range]; lia, by lia⟩

theorem nodup_rows (a b : ℤ) : (rows a b).Nodup := by
  unfold rows
  refine List.Nodup.map ?_ List.nodup_range
  intro x y h
  simp only at h
  lia

theorem nodup_flat {α β : Type} (l : List α) (f : α → List β) (key : β → α) (hl : l.Nodup) (hf : ∀ a ∈ l, (f a).Nodup)
    (hk : ∀ a ∈ l, ∀ b ∈ f a, key b = a) : (l.flatMap f).Nodup := by
  induction l with
  | nil => simp
  | cons a l ih =>
    rw [List.flatMap_cons, List.nodup_append]
    rw [List.nodup_cons] at hl
    refine ⟨hf a (by simp), ih hl.2 (fun b hb => hf b (by simp [hb])) (fun b hb => hk b (by simp [hb])), ?_⟩
    intro x hx y hy hxy
    subst hxy
    rw [List.mem_flatMap] at hy
    obtain ⟨c, hc, hxc⟩ := hy
    have h1 := hk a (by simp) x hx
    have h2 := hk c (by simp [hc]) x hxc
    rw [h1] at h2
    subst h2
    exact hl.1 hc

theorem nodup_cells2 (B : Box2) (off : ℤ) : (cells2 B off).Nodup := by
  unfold cells2
  refine nodup_flat _ _ Prod.snd (nodup_rows _ _) ?_ ?_
  · intro j _
    refine List.Nodup.map ?_ (nodup_rowCells _ _ _)
    intro x y h
    exact (Prod.mk.inj h).1
  · intro j _ b hb
    rw [List.mem_map] at hb
    obtain ⟨i, _, rfl⟩ := hb
    rfl

theorem mem_cells2 (B : Box2) (off : ℤ) (p : ℤ × ℤ) :
    p ∈ cells2 B off ↔ (B.jfirst ≤ p.2 ∧ p.2 ≤ B.jlast) ∧
      p.1 ∈ rowCells B.ifirst B.ilast (ioffset (B.jfirst + p.2) off) := by
  unfold cells2
  rw [List.mem_flatMap]
  constructor
  · rintro ⟨j, hj, hp⟩
    rw [List.mem_map] at hp
    obtain ⟨i, hi, rfl⟩ := hp
    exact ⟨(mem_rows _ _ _).1 hj, hi⟩
  · rintro ⟨hj, hi⟩
    exact ⟨p.2, (mem_rows _ _ _).2 hj, List.mem_map.2 ⟨p.1, hi, rfl⟩⟩

theorem nodup_cells3 (B : Box3) (off : ℤ) : (cells3 B off).Nodup := by
  unfold cells3
  refine nodup_flat _ _ (fun p => p.2.2) (nodup_rows _ _) ?_ ?_
  · intro k _
    refine nodup_flat _ _ (fun p => p.2.1) (nodup_rows _ _) ?_ ?_
    · intro j _
      refine List.Nodup.map ?_ (nodup_rowCells _ _ _)
      intro x y h
      exact (Prod.mk.inj h).1
    · intro j _ b hb
      rw [List.mem_map] at hb
      obtain ⟨i, _, rfl⟩ := hb
      rfl
  · intro k _ b hb
    rw [List.mem_flatMap] at hb
    obtain ⟨j, _, hb⟩ := hb
    rw [List.mem_map] at hb
    obtain ⟨i, _, rfl⟩ := hb
    rfl

theorem mem_cells3 (B : Box3) (off : ℤ) (p : ℤ × ℤ × ℤ) :
    p ∈ cells3 B off ↔ (B.kfirst ≤ p.2.2 ∧ p.2.2 ≤ B.klast) ∧ (B.jfirst ≤ p.2.1 ∧ p.2.1 ≤ B.jlast) ∧
      p.1 ∈ rowCells B.ifirst B.ilast (ioffset (B.ifirst + p.2.1 + p.2.2) off) := by
  unfold cells3
  rw [List.mem_flatMap]
  constructor
  · rintro ⟨k, hk, hp⟩
    rw [List.mem_flatMap] at hp
    obtain ⟨j, hj, hp⟩ := hp
    rw [List.mem_map] at hp
    obtain ⟨i, hi, rfl⟩ := hp
    exact ⟨(mem_rows _ _ _).1 hk, (mem_rows _ _ _).1 hj, hi⟩
  · rintro ⟨hk, hj, hi⟩
    exact ⟨p.2.2, (mem_rows _ _ _).2 hk, List.mem_flatMap.2 ⟨p.2.1, (mem_rows _ _ _).2 hj,
      List.mem_map.2 ⟨p.1, hi, rfl⟩⟩⟩

/-! ## Coverage -/

/-- The cell lies in the box. -/
def In2 (B : Box2) (p : ℤ × ℤ) : Prop := B.ifirst ≤ p.1 ∧ p.1 ≤ B.ilast ∧ B.jfirst ≤ p.2 ∧ p.2 ≤ B.jlast

/-- The cell lies in the box. -/
def In3 (B : Box3) (p : ℤ × ℤ × ℤ) : Prop :=
  B.ifirst ≤ p.1 ∧ p.1 ≤ B.ilast ∧ B.jfirst ≤ p.2.1 ∧ p.2.1 ≤ B.jlast ∧ B.kfirst ≤ p.2.2 ∧ p.2.2 ≤ B.klast

/-- How often a cell is updated. -/
def visits {ι : Type} [DecidableEq ι] (l : List ι) (p : ι) : ℕ := l.count p

theorem visits_append {ι : Type} [DecidableEq ι] (a b : List ι) (p : ι) : visits (a ++ b) p = visits a p + visits b p :=
  List.count_append

theorem visits_zero {ι : Type} [DecidableEq ι] {a : List ι} {p : ι} (h : p ∉ a) : visits a p = 0 :=
  List.count_eq_zero_of_not_mem h

theorem visits_one {ι : Type} [DecidableEq ι] {a : List ι} (ha : a.Nodup) {p : ι} (h : p ∈ a) : visits a p = 1 :=
  List.count_eq_one_of_mem ha h

/-- Both passes together update every cell of the box exactly once and no other cell. -/
def OnceEach {ι : Type} [DecidableEq ι] (inBox : ι → Prop) (red black : List ι) : Prop :=
  ∀ p, (inBox p → visits (red ++ black) p = 1) ∧ (¬ inBox p → visits (red ++ black) p = 0)

/-- **C43**: with a non-negative row origin a cell belongs to the pass of its checkerboard colour. -/
theorem c43_colour2 (B : Box2) (h : 0 ≤ B.jfirst) (off : ℤ) (hoff : off = 0 ∨ off = 1) (p : ℤ × ℤ) :
    p ∈ cells2 B off ↔ In2 B p ∧ (p.1 - B.ifirst + B.jfirst + p.2) % 2 = off := by
  rw [mem_cells2, mem_rowCells]
  unfold In2
  constructor
  · rintro ⟨⟨h1, h2⟩, h3⟩
    rw [ioffset_nonneg _ _ (by lia)] at h3
    split at h3 <;> lia
  · rintro ⟨h1, h2⟩
    rw [ioffset_nonneg _ _ (by lia)]
    split <;> lia

/-- **C43**, 3D: the colour is the parity of `i+j+k`, the same on every patch. -/
theorem c43_colour3 (B : Box3) (h : 0 ≤ B.ifirst + B.jfirst + B.kfirst) (off : ℤ) (hoff : off = 0 ∨ off = 1)
    (p : ℤ × ℤ × ℤ) : p ∈ cells3 B off ↔ In3 B p ∧ (p.1 + p.2.1 + p.2.2) % 2 = off := by
  rw [mem_cells3, mem_rowCells]
  unfold In3
  constructor
  · rintro ⟨⟨h1, h2⟩, h4, h3⟩
    rw [ioffset_nonneg _ _ (by lia)] at h3
    split at h3 <;> lia
  · rintro ⟨h1, h2⟩
    rw [ioffset_nonneg _ _ (by lia)]
    split <;> lia

theorem once_of {ι : Type} [DecidableEq ι] (inBox : ι → Prop) (red black : List ι) (hr : red.Nodup) (hb : black.Nodup)
    (h : ∀ p, (inBox p ↔ p ∈ red ∨ p ∈ black) ∧ ¬ (p ∈ red ∧ p ∈ black)) : OnceEach inBox red black := by
  intro p
  rw [visits_append]
  obtain ⟨h1, h2⟩ := h p
  constructor
  · intro hp
    rcases h1.1 hp with hm | hm
    · rw [visits_one hr hm, visits_zero fun hx => h2 ⟨hm, hx⟩]
    · rw [visits_one hb hm, visits_zero fun hx => h2 ⟨hx, hm⟩]
  · intro hp
    rw [visits_zero fun hx => hp (h1.2 (Or.inl hx)),
      visits_zero fun hx => hp (h1.2 (Or.inr hx))]

/-- **C43**: a red and a black pass update every cell of the patch exactly once precisely when the patch's second index
origin is non-negative (or the patch has at most one row or no column). -/
theorem c43_once2 (B : Box2) :
    OnceEach (In2 B) (cells2 B 0) (cells2 B 1) ↔ 0 ≤ B.jfirst ∨ B.jlast ≤ B.jfirst ∨ B.ilast < B.ifirst := by
  constructor
  · intro h
    by_contra hn
    push Not at hn
    obtain ⟨hj, hj2, hi⟩ := hn
    have h1 := (h (B.ifirst, B.jfirst + 1)).1 ⟨le_refl _, hi, by simp, by simp; lia⟩
    have hm : ∀ off : ℤ, 0 ≤ off → (B.ifirst, B.jfirst + 1) ∉ cells2 B off := by
      intro off hoff hx
      rw [mem_cells2, mem_rowCells] at hx
      rw [ioffset_negodd _ _ (by simp; lia) (by simp; lia) hoff] at hx
      obtain ⟨_, hx, _⟩ := hx
      simp only at hx
      lia
    rw [visits_append, visits_zero (hm 0 (by norm_num)),
      visits_zero (hm 1 (by norm_num))] at h1
    exact absurd h1 (by norm_num)
  · intro h
    refine once_of _ _ _ (nodup_cells2 _ _) (nodup_cells2 _ _) fun p => ?_
    have key : ∀ off, off = 0 ∨ off = 1 →
        (p ∈ cells2 B off ↔ In2 B p ∧ (p.1 - B.ifirst + B.jfirst + p.2) % 2 = off) := by
      intro off hoff
      rcases h with h | h | h
      · exact c43_colour2 B h off hoff p
      · rw [mem_cells2, mem_rowCells]
        unfold In2
        constructor
        · rintro ⟨h1, h3⟩
          have hp : p.2 = B.jfirst := by lia
          rw [hp, ioffset_even _ _ (by lia)] at h3
          split at h3 <;> lia
        · rintro ⟨h1, h3⟩
          have hp : p.2 = B.jfirst := by lia
          rw [hp, ioffset_even _ _ (by lia)]
          split <;> lia
      · rw [mem_cells2, mem_rowCells]
        unfold In2
        have : 0 ≤ ioffset (B.jfirst + p.2) off := by unfold ioffset; split <;> lia
        lia
    rw [key 0 (Or.inl rfl), key 1 (Or.inr rfl)]
    constructor
    · constructor
      · intro hp
        rcases Int.emod_two_eq_zero_or_one (p.1 - B.ifirst + B.jfirst + p.2) with h | h
        · exact Or.inl ⟨hp, h⟩
        · exact Or.inr ⟨hp, h⟩
      · rintro (h | h) <;> exact h.1
    · rintro ⟨h1, h2⟩
      lia

/-- **C43** is violated for negative origins: in every row with `jfirst+j` negative and odd, every second cell is
updated twice and the others never. -/
theorem c43_violation_negative_rows (B : Box2) (p : ℤ × ℤ) (hp : In2 B p) (hneg : B.jfirst + p.2 < 0)
    (hodd : (B.jfirst + p.2) % 2 = 1) :
    visits (cells2 B 0 ++ cells2 B 1) p = if (p.1 - B.ifirst) % 2 = 1 then 2 else 0 := by
  have hm : ∀ off : ℤ, 0 ≤ off → (p ∈ cells2 B off ↔ (p.1 - B.ifirst) % 2 = 1) := by
    intro off hoff
    rw [mem_cells2, mem_rowCells, ioffset_negodd _ _ hneg hodd hoff]
    unfold In2 at hp
    lia
  rw [visits_append]
  split
  · next h =>
    rw [visits_one (nodup_cells2 _ _) ((hm 0 (by norm_num)).2 h),
      visits_one (nodup_cells2 _ _) ((hm 1 (by norm_num)).2 h)]
  · next h =>
    rw [visits_zero (fun hx => h ((hm 0 (by norm_num)).1 hx)),
      visits_zero (fun hx => h ((hm 1 (by norm_num)).1 hx))]

example : ∃ B : Box2, In2 B (0, 0) ∧ visits (cells2 B 0 ++ cells2 B 1) (0, 0) = 0 :=
  ⟨⟨0, 3, -1, 2⟩, by unfold In2; norm_num,
    by rw [c43_violation_negative_rows _ _ (by unfold In2; norm_num) (by norm_num) (by norm_num)]; norm_num⟩

/-- **C43**, 3D coverage. -/
theorem c43_once3_partial (B : Box3) (h : 0 ≤ B.ifirst + B.jfirst + B.kfirst) :
    OnceEach (In3 B) (cells3 B 0) (cells3 B 1) := by
  refine once_of _ _ _ (nodup_cells3 _ _) (nodup_cells3 _ _) fun p => ?_
  rw [c43_colour3 B h 0 (Or.inl rfl), c43_colour3 B h 1 (Or.inr rfl)]
  constructor
  · constructor
    · intro hp
      rcases Int.emod_two_eq_zero_or_one (p.1 + p.2.1 + p.2.2) with h | h
      · exact Or.inl ⟨hp, h⟩
      · exact Or.inr ⟨hp, h⟩
    · rintro (h | h) <;> exact h.1
  · rintro ⟨h1, h2⟩
    lia

/-- **C43** is violated in 3D for negative origins in the same way. -/
theorem c43_violation_negative_rows3 (B : Box3) (p : ℤ × ℤ × ℤ) (hp : In3 B p) (hneg : B.ifirst + p.2.1 + p.2.2 < 0)
    (hodd : (B.ifirst + p.2.1 + p.2.2) % 2 = 1) :
    visits (cells3 B 0 ++ cells3 B 1) p = if (p.1 - B.ifirst) % 2 = 1 then 2 else 0 := by
  have hm : ∀ off : ℤ, 0 ≤ off → (p ∈ cells3 B off ↔ (p.1 - B.ifirst) % 2 = 1) := by
    intro off hoff
    rw [mem_cells3, mem_rowCells, ioffset_negodd _ _ hneg hodd hoff]
    unfold In3 at hp
    lia
  rw [visits_append]
  split
  · next h =>
    rw [visits_one (nodup_cells3 _ _) ((hm 0 (by norm_num)).2 h),
      visits_one (nodup_cells3 _ _) ((hm 1 (by norm_num)).2 h)]
  · next h =>
    rw [visits_zero (fun hx => h ((hm 0 (by norm_num)).1 hx)),
      visits_zero (fun hx => h ((hm 1 (by norm_num)).1 hx))]

/-- Face neighbours. -/
def Adj2 (p q : ℤ × ℤ) : Prop := |p.1 - q.1| + |p.2 - q.2| = 1

/-- Face neighbours. -/
def Adj3 (p q : ℤ × ℤ × ℤ) : Prop := |p.1 - q.1| + |p.2.1 - q.2.1| + |p.2.2 - q.2.2| = 1

theorem adj_cases (a b : ℤ) (h : |a| + |b| = 1) : (a + b) % 2 = 1 := by
  rcases abs_cases a with ⟨ha, _⟩ | ⟨ha, _⟩ <;> rcases abs_cases b with ⟨hb, _⟩ | ⟨hb, _⟩ <;> lia

/-- **C43**: within a patch, cells of one pass never share a face. -/
theorem c43_independent2 (B : Box2) (h : 0 ≤ B.jfirst) (off : ℤ) (hoff : off = 0 ∨ off = 1) (p q : ℤ × ℤ)
    (hp : p ∈ cells2 B off) (hq : q ∈ cells2 B off) : ¬ Adj2 p q := by
  intro ha
  have := adj_cases _ _ ha
  rw [c43_colour2 B h off hoff] at hp hq
  lia

/-- **C43**, 3D: cells of one pass never share a face, even when they lie on different patches. -/
theorem c43_independent3 (B B' : Box3) (h : 0 ≤ B.ifirst + B.jfirst + B.kfirst)
    (h' : 0 ≤ B'.ifirst + B'.jfirst + B'.kfirst) (off : ℤ) (hoff : off = 0 ∨ off = 1) (p q : ℤ × ℤ × ℤ)
    (hp : p ∈ cells3 B off) (hq : q ∈ cells3 B' off) : ¬ Adj3 p q := by
  intro ha
  unfold Adj3 at ha
  rw [c43_colour3 B h off hoff] at hp
  rw [c43_colour3 B' h' off hoff] at hq
  rcases abs_cases (p.1 - q.1) with ⟨h1, _⟩ | ⟨h1, _⟩ <;> rcases abs_cases (p.2.1 - q.2.1) with ⟨h2, _⟩ | ⟨h2, _⟩ <;>
    rcases abs_cases (p.2.2 - q.2.2) with ⟨h3, _⟩ | ⟨h3, _⟩ <;> lia

/-- **C43** is violated across patches in 2D: face neighbours on two patches are updated in the same pass exactly when
the two patches' index origins have different parities. -/
theorem c43_violation_across_patches (B B' : Box2) (h : 0 ≤ B.jfirst) (h' : 0 ≤ B'.jfirst) (p q : ℤ × ℤ) (hp : In2 B p)
    (hq : In2 B' q) (ha : Adj2 p q) :
    (∃ off, (off = 0 ∨ off = 1) ∧ p ∈ cells2 B off ∧ q ∈ cells2 B' off) ↔
      (B.ifirst + B.jfirst) % 2 ≠ (B'.ifirst + B'.jfirst) % 2 := by
  have := adj_cases _ _ ha
  constructor
  · rintro ⟨off, hoff, h1, h2⟩
    rw [c43_colour2 B h off hoff] at h1
    rw [c43_colour2 B' h' off hoff] at h2
    lia
  · intro hne
    rcases Int.emod_two_eq_zero_or_one (p.1 - B.ifirst + B.jfirst + p.2) with hc | hc
    · refine ⟨0, Or.inl rfl, ?_, ?_⟩
      · rw [c43_colour2 B h 0 (Or.inl rfl)]; exact ⟨hp, hc⟩
      · rw [c43_colour2 B' h' 0 (Or.inl rfl)]; exact ⟨hq, by lia⟩
    · refine ⟨1, Or.inr rfl, ?_, ?_⟩
      · rw [c43_colour2 B h 1 (Or.inr rfl)]; exact ⟨hp, hc⟩
      · rw [c43_colour2 B' h' 1 (Or.inr rfl)]; exact ⟨hq, by lia⟩

example : ∃ B B' : Box2, ∃ p q, 0 ≤ B.jfirst ∧ 0 ≤ B'.jfirst ∧ In2 B p ∧ In2 B' q ∧ Adj2 p q ∧
    (B.ifirst + B.jfirst) % 2 ≠ (B'.ifirst + B'.jfirst) % 2 :=
  ⟨⟨0, 4, 0, 4⟩, ⟨5, 9, 0, 4⟩, (4, 2), (5, 2), by unfold In2 Adj2; norm_num⟩

/-! ## One pass -/

theorem pass_fst {ι : Type} [DecidableEq ι] (res : ι → ℝ → ℝ) (d : ι → ℝ) (l : List ι) (hl : l.Nodup) (s : (ι → ℝ) × ℝ)
    (p : ι) : (l.foldl (step res d) s).1 p = if p ∈ l then s.1 p - res p (s.1 p) * d p else s.1 p := by
  induction l generalizing s with
  | nil => simp
  | cons a l ih =>
    rw [List.nodup_cons] at hl
    rw [List.foldl_cons, ih hl.2]
    by_cases hpa : p = a
    · subst hpa
      rw [if_neg hl.1, if_pos (by simp)]
      unfold step
      simp only [Function.update_self]
      ring
    · unfold step
      simp only [Function.update_of_ne hpa, List.mem_cons, hpa, false_or]

theorem pass_max {ι : Type} [DecidableEq ι] (res : ι → ℝ → ℝ) (d : ι → ℝ) (l : List ι) (hl : l.Nodup)
    (s : (ι → ℝ) × ℝ) :
    s.2 ≤ (l.foldl (step res d) s).2 ∧ (∀ p ∈ l, |res p (s.1 p)| ≤ (l.foldl (step res d) s).2) ∧
      ((l.foldl (step res d) s).2 = s.2 ∨ ∃ p ∈ l, (l.foldl (step res d) s).2 = |res p (s.1 p)|) := by
  induction l generalizing s with
  | nil => simp
  | cons a l ih =>
    rw [List.nodup_cons] at hl
    rw [List.foldl_cons]
    obtain ⟨h1, h2, h3⟩ := ih hl.2 (step res d s a)
    have hv : ∀ p ∈ l, (step res d s a).1 p = s.1 p := by
      intro p hp
      have : p ≠ a := fun h => hl.1 (h ▸ hp)
      unfold step
      simp only [Function.update_of_ne this]
    have hs : (step res d s a).2 = if s.2 < |res a (s.1 a)| then |res a (s.1 a)| else s.2 := rfl
    have hge : s.2 ≤ (step res d s a).2 ∧ |res a (s.1 a)| ≤ (step res d s a).2 := by
      rw [hs]; split
      · next h => exact ⟨h.le, le_refl _⟩
      · next h => exact ⟨le_refl _, not_lt.1 h⟩
    refine ⟨hge.1.trans h1, ?_, ?_⟩
    · intro p hp
      rw [List.mem_cons] at hp
      rcases hp with rfl | hp
      · exact hge.2.trans h1
      · rw [← hv p hp]; exact h2 p hp
    · rcases h3 with h3 | ⟨p, hp, h3⟩
      · rw [hs] at h3
        split at h3
        · exact Or.inr ⟨a, by simp, h3⟩
        · exact Or.inl h3
      · exact Or.inr ⟨p, by simp [hp], by rw [h3, hv p hp]⟩

/-- **C43**: the reported `maxres` is the largest residual (before its update) of the cells of the pass. -/
theorem c43_maxres (C : Coef2) (B : Box2) (off : ℤ) (u : ℤ × ℤ → ℝ) :
    (∀ p ∈ cells2 B off, |C.levelResidual u p| ≤ (C.colourPass B off u).2) ∧
    ((C.colourPass B off u).2 = 0 ∨ ∃ p ∈ cells2 B off, (C.colourPass B off u).2 = |C.levelResidual u p|) := by
  obtain ⟨_, h2, h3⟩ := pass_max (C.residual (C.xflux u) (C.yflux u)) C.dudr (cells2 B off) (nodup_cells2 _ _) (u, 0)
  exact ⟨h2, h3⟩

/-- **C43**: cells outside the pass keep their value; a cell whose residual is already zero keeps its value. -/
theorem c43_untouched (C : Coef2) (B : Box2) (off : ℤ) (u : ℤ × ℤ → ℝ) (p : ℤ × ℤ)
    (h : p ∉ cells2 B off ∨ C.levelResidual u p = 0) : (C.colourPass B off u).1 p = u p := by
  unfold Coef2.colourPass pass
  rw [pass_fst _ _ _ (nodup_cells2 _ _)]
  split
  · next hp =>
    rcases h with h | h
    · exact absurd hp h
    · have : C.residual (C.xflux u) (C.yflux u) p (u p) = 0 := h
      simp only [this]; ring
  · rfl

/-- **C43**: an exact solution is left unchanged by both passes. -/
theorem c43_fixed_point (C : Coef2) (B : Box2) (off : ℤ) (u : ℤ × ℤ → ℝ)
    (h : ∀ p, In2 B p → C.levelResidual u p = 0) : (C.colourPass B off u).1 = u := by
  funext p
  apply c43_untouched
  by_cases hp : In2 B p
  · exact Or.inr (h p hp)
  · left
    intro hm
    rw [mem_cells2, mem_rowCells] at hm
    apply hp
    have : 0 ≤ ioffset (B.jfirst + p.2) off := by unfold ioffset; split <;> lia
    unfold In2
    lia

/-- Derivative of the code's residual with respect to the value of its own cell. -/
noncomputable def ownSlope (C : Coef2) (p : ℤ × ℤ) : ℝ :=
  C.m p * (1 / C.dx * (1 / C.fx) * (C.xdc (p.1 + 1, p.2) + C.xdc p) +
    1 / C.dy * (1 / C.fy) * (C.ydc (p.1, p.2 + 1) + C.ydc p)) - C.sf p

theorem residual_change (C : Coef2) (u v : ℤ × ℤ → ℝ) (p : ℤ × ℤ) (h1 : v (p.1 + 1, p.2) = u (p.1 + 1, p.2))
    (h2 : v (p.1 - 1, p.2) = u (p.1 - 1, p.2)) (h3 : v (p.1, p.2 + 1) = u (p.1, p.2 + 1))
    (h4 : v (p.1, p.2 - 1) = u (p.1, p.2 - 1)) :
    C.levelResidual v p = C.levelResidual u p + ownSlope C p * (v p - u p) := by
  unfold Coef2.levelResidual Coef2.residual Coef2.xflux Coef2.yflux ownSlope
  simp only [add_sub_cancel_right, h1, h2, h3, h4, Prod.mk.eta]
  ring

/-- Residual after a pass at the cells of the pass, for any pair of spacings. -/
theorem residual_after (C : Coef2) (B : Box2) (h : 0 ≤ B.jfirst) (off : ℤ) (hoff : off = 0 ∨ off = 1) (u : ℤ × ℤ → ℝ)
    (p : ℤ × ℤ) (hp : p ∈ cells2 B off) :
    C.levelResidual (C.colourPass B off u).1 p = C.levelResidual u p * (1 - ownSlope C p * C.dudr p) := by
  have hn : ∀ q, Adj2 p q → (C.colourPass B off u).1 q = u q := fun q hq =>
    c43_untouched C B off u q (Or.inl fun hm => c43_independent2 B h off hoff p q hp hm hq)
  rw [residual_change C u _ p (hn _ (by unfold Adj2; simp)) (hn _ (by unfold Adj2; simp)) (hn _ (by unfold Adj2; simp))
    (hn _ (by unfold Adj2; simp))]
  have hv : (C.colourPass B off u).1 p = u p - C.levelResidual u p * C.dudr p := by
    unfold Coef2.colourPass pass
    rw [pass_fst _ _ _ (nodup_cells2 _ _), if_pos hp]
    rfl
  rw [hv]
  ring

/-- **C43**: after a pass the residual vanishes at every cell of that colour (fluxes taken with the patch's own spacing,
which is the coarsest level; see C59 for the others). -/
theorem c43_residual_zero_partial (C : Coef2) (B : Box2) (h : 0 ≤ B.jfirst) (off : ℤ) (hoff : off = 0 ∨ off = 1)
    (hx : C.fx = C.dx) (hy : C.fy = C.dy) (u : ℤ × ℤ → ℝ) (p : ℤ × ℤ) (hp : p ∈ cells2 B off)
    (hd : ownSlope C p ≠ 0) : C.levelResidual (C.colourPass B off u).1 p = 0 := by
  rw [residual_after C B h off hoff u p hp]
  have : C.dudr p = 1 / ownSlope C p := by unfold Coef2.dudr ownSlope; rw [hx, hy]
  rw [this, mul_one_div_cancel hd]
  ring

/-- A genuinely elliptic operator (positive diffusion, positive `m`, non-positive scalar field) has no zero slope. -/
theorem ownSlope_pos (C : Coef2) (p : ℤ × ℤ) (hm : 0 < C.m p) (hx : 0 < C.dx) (hy : 0 < C.dy) (hfx : 0 < C.fx)
    (hfy : 0 < C.fy) (h1 : 0 < C.xdc (p.1 + 1, p.2)) (h2 : 0 < C.xdc p) (h3 : 0 < C.ydc (p.1, p.2 + 1))
    (h4 : 0 < C.ydc p) (hs : C.sf p ≤ 0) : 0 < ownSlope C p := by
  unfold ownSlope
  have : 0 < C.m p * (1 / C.dx * (1 / C.fx) * (C.xdc (p.1 + 1, p.2) + C.xdc p) +
    1 / C.dy * (1 / C.fy) * (C.ydc (p.1, p.2 + 1) + C.ydc p)) := by positivity
  linarith

example : ∃ (C : Coef2) (B : Box2) (u : ℤ × ℤ → ℝ) (p : ℤ × ℤ), 0 ≤ B.jfirst ∧ C.fx = C.dx ∧ C.fy = C.dy ∧
    p ∈ cells2 B 1 ∧ ownSlope C p ≠ 0 ∧ C.levelResidual u p ≠ 0 := by
  refine ⟨⟨1, 1, 1, 1, fun _ => 1, fun _ => 1, fun _ => 1, fun _ => 0, fun _ => 3⟩, ⟨0, 3, 0, 3⟩, fun _ => 0, (1, 0),
    by norm_num, rfl, rfl, ?_, ?_, ?_⟩
  · rw [c43_colour2 _ (by norm_num) 1 (Or.inr rfl)]; unfold In2; norm_num
  · unfold ownSlope; norm_num
  · unfold Coef2.levelResidual Coef2.residual Coef2.xflux Coef2.yflux; norm_num

/-! ### 3D -/

theorem pass3_untouched (C : Coef3) (B : Box3) (off : ℤ) (u : ℤ × ℤ × ℤ → ℝ) (p : ℤ × ℤ × ℤ)
    (h : p ∉ cells3 B off ∨ C.levelResidual u p = 0) : (C.colourPass B off u).1 p = u p := by
  unfold Coef3.colourPass pass
  rw [pass_fst _ _ _ (nodup_cells3 _ _)]
  split
  · next hp =>
    rcases h with h | h
    · exact absurd hp h
    · have : C.residual (C.xflux u) (C.yflux u) (C.zflux u) p (u p) = 0 := h
      simp only [this]; ring
  · rfl

/-- **C43**, 3D: an exact solution is left unchanged. -/
theorem c43_fixed_point3 (C : Coef3) (B : Box3) (off : ℤ) (u : ℤ × ℤ × ℤ → ℝ)
    (h : ∀ p, In3 B p → C.levelResidual u p = 0) : (C.colourPass B off u).1 = u := by
  funext p
  apply pass3_untouched
  by_cases hp : In3 B p
  · exact Or.inr (h p hp)
  · left
    intro hm
    rw [mem_cells3, mem_rowCells] at hm
    apply hp
    have : 0 ≤ ioffset (B.ifirst + p.2.1 + p.2.2) off := by unfold ioffset; split <;> lia
    unfold In3
    lia

/-- Derivative of the code's residual with respect to the value of its own cell, 3D. -/
noncomputable def ownSlope3 (C : Coef3) (p : ℤ × ℤ × ℤ) : ℝ :=
  C.m p * (1 / C.dx * (1 / C.fx) * (C.xdc (p.1 + 1, p.2.1, p.2.2) + C.xdc p) +
    1 / C.dy * (1 / C.fy) * (C.ydc (p.1, p.2.1 + 1, p.2.2) + C.ydc p) +
    1 / C.dz * (1 / C.fz) * (C.zdc (p.1, p.2.1, p.2.2 + 1) + C.zdc p)) - C.sf p

theorem residual_after3 (C : Coef3) (B : Box3) (h : 0 ≤ B.ifirst + B.jfirst + B.kfirst) (off : ℤ)
    (hoff : off = 0 ∨ off = 1) (u : ℤ × ℤ × ℤ → ℝ) (p : ℤ × ℤ × ℤ) (hp : p ∈ cells3 B off) :
    C.levelResidual (C.colourPass B off u).1 p = C.levelResidual u p * (1 - ownSlope3 C p * C.dudr p) := by
  have hn : ∀ q, Adj3 p q → (C.colourPass B off u).1 q = u q := fun q hq =>
    pass3_untouched C B off u q (Or.inl fun hm => c43_independent3 B B h h off hoff p q hp hm hq)
  have hv : (C.colourPass B off u).1 p = u p - C.levelResidual u p * C.dudr p := by
    unfold Coef3.colourPass pass
    rw [pass_fst _ _ _ (nodup_cells3 _ _), if_pos hp]
    rfl
  generalize (C.colourPass B off u).1 = v at *
  have h1 := hn (p.1 + 1, p.2.1, p.2.2) (by unfold Adj3; simp)
  have h2 := hn (p.1 - 1, p.2.1, p.2.2) (by unfold Adj3; simp)
  have h3 := hn (p.1, p.2.1 + 1, p.2.2) (by unfold Adj3; simp)
  have h4 := hn (p.1, p.2.1 - 1, p.2.2) (by unfold Adj3; simp)
  have h5 := hn (p.1, p.2.1, p.2.2 + 1) (by unfold Adj3; simp)
  have h6 := hn (p.1, p.2.1, p.2.2 - 1) (by unfold Adj3; simp)
  have hc : C.levelResidual v p = C.levelResidual u p + ownSlope3 C p * (v p - u p) := by
    unfold Coef3.levelResidual Coef3.residual Coef3.xflux Coef3.yflux Coef3.zflux ownSlope3
    simp only [add_sub_cancel_right, h1, h2, h3, h4, h5, h6, Prod.mk.eta]
    ring
  rw [hc, hv]
  ring

/-- **C43**, 3D: residual zero after the pass. -/
theorem c43_residual_zero3_partial (C : Coef3) (B : Box3) (h : 0 ≤ B.ifirst + B.jfirst + B.kfirst) (off : ℤ)
    (hoff : off = 0 ∨ off = 1) (hx : C.fx = C.dx) (hy : C.fy = C.dy) (hz : C.fz = C.dz) (u : ℤ × ℤ × ℤ → ℝ)
    (p : ℤ × ℤ × ℤ) (hp : p ∈ cells3 B off) (hd : ownSlope3 C p ≠ 0) :
    C.levelResidual (C.colourPass B off u).1 p = 0 := by
  rw [residual_after3 C B h off hoff u p hp]
  have : C.dudr p = 1 / ownSlope3 C p := by unfold Coef3.dudr ownSlope3; rw [hx, hy, hz]
  rw [this, mul_one_div_cancel hd]
  ring

/-! ## C59: spacing of the fluxes -/

/-- The discrete residual `rhs - m div(D grad u) - C u` of a level with spacings `dx`, `dy`. -/
noncomputable def trueResidual (dx dy : ℝ) (xdc ydc m sf rhs u : ℤ × ℤ → ℝ) (p : ℤ × ℤ) : ℝ :=
  rhs p - m p * ((xdc (p.1 + 1, p.2) * (u (p.1 + 1, p.2) - u p) - xdc p * (u p - u (p.1 - 1, p.2))) / dx ^ 2 +
    (ydc (p.1, p.2 + 1) * (u (p.1, p.2 + 1) - u p) - ydc p * (u p - u (p.1, p.2 - 1))) / dy ^ 2) - sf p * u p

/-- Same, the diffusion term divided by `r`. -/
noncomputable def scaledResidual (r dx dy : ℝ) (xdc ydc m sf rhs u : ℤ × ℤ → ℝ) (p : ℤ × ℤ) : ℝ :=
  trueResidual dx dy xdc ydc (fun q => m q / r) sf rhs u p

theorem prod_pos_cast (ratios : List ℕ) (h : ∀ r ∈ ratios, 1 ≤ r) : (0 : ℝ) < (ratios.map Nat.cast).prod := by
  induction ratios with
  | nil => simp
  | cons a l ih =>
    rw [List.map_cons, List.prod_cons]
    have h1 : (1 : ℝ) ≤ (a : ℝ) := by exact_mod_cast h a (by simp)
    have := ih fun r hr => h r (by simp [hr])
    positivity

/-- **C59** is violated on refined levels: the residual the solver works with is, on every level, the one whose
diffusion term is divided by the total refinement ratio. -/
theorem c59_violation_level_residual (dx0 dy0 : ℝ) (hx : dx0 ≠ 0) (hy : dy0 ≠ 0) (ratios : List ℕ)
    (hr : ∀ r ∈ ratios, 1 ≤ r) (xdc ydc m sf rhs u : ℤ × ℤ → ℝ) (p : ℤ × ℤ) :
    (onLevel2 dx0 dy0 ratios xdc ydc m sf rhs).levelResidual u p =
      scaledResidual ((ratios.map Nat.cast).prod) (levelDx dx0 ratios) (levelDx dy0 ratios) xdc ydc m sf rhs u p := by
  have hp := prod_pos_cast ratios hr
  unfold Coef2.levelResidual Coef2.residual Coef2.xflux Coef2.yflux onLevel2 scaledResidual trueResidual levelDx
  simp only [add_sub_cancel_right, Prod.mk.eta]
  generalize (ratios.map (Nat.cast : ℕ → ℝ)).prod = R at *
  field_simp

/-- **C59** holds on the coarsest level. -/
theorem c59_coarsest_partial (dx0 dy0 : ℝ) (hx : dx0 ≠ 0) (hy : dy0 ≠ 0) (xdc ydc m sf rhs u : ℤ × ℤ → ℝ)
    (p : ℤ × ℤ) :
    (onLevel2 dx0 dy0 [] xdc ydc m sf rhs).levelResidual u p = trueResidual dx0 dy0 xdc ydc m sf rhs u p := by
  rw [c59_violation_level_residual dx0 dy0 hx hy [] (by simp)]
  unfold scaledResidual trueResidual levelDx
  simp

/-- Diffusion part of the discrete operator. -/
noncomputable def diffusion (dx dy : ℝ) (xdc ydc m u : ℤ × ℤ → ℝ) (p : ℤ × ℤ) : ℝ :=
  m p * ((xdc (p.1 + 1, p.2) * (u (p.1 + 1, p.2) - u p) - xdc p * (u p - u (p.1 - 1, p.2))) / dx ^ 2 +
    (ydc (p.1, p.2 + 1) * (u (p.1, p.2 + 1) - u p) - ydc p * (u p - u (p.1, p.2 - 1))) / dy ^ 2)

/-- **C59**: how wrong a converged solution is. Where the code's residual vanishes on a level with total ratio `R`, the
true residual is `(1/R - 1)` times the diffusion term; it vanishes only if the level is not refined or nothing
diffuses there. -/
theorem c59_violation_converged (dx0 dy0 : ℝ) (hx : dx0 ≠ 0) (hy : dy0 ≠ 0) (ratios : List ℕ)
    (hr : ∀ r ∈ ratios, 1 ≤ r) (xdc ydc m sf rhs u : ℤ × ℤ → ℝ) (p : ℤ × ℤ)
    (h0 : (onLevel2 dx0 dy0 ratios xdc ydc m sf rhs).levelResidual u p = 0) :
    trueResidual (levelDx dx0 ratios) (levelDx dy0 ratios) xdc ydc m sf rhs u p =
      (1 / (ratios.map Nat.cast).prod - 1) * diffusion (levelDx dx0 ratios) (levelDx dy0 ratios) xdc ydc m u p ∧
    (trueResidual (levelDx dx0 ratios) (levelDx dy0 ratios) xdc ydc m sf rhs u p = 0 ↔
      (ratios.map Nat.cast).prod = (1 : ℝ) ∨
        diffusion (levelDx dx0 ratios) (levelDx dy0 ratios) xdc ydc m u p = 0) := by
  rw [c59_violation_level_residual dx0 dy0 hx hy ratios hr] at h0
  have hp := prod_pos_cast ratios hr
  have h1 : trueResidual (levelDx dx0 ratios) (levelDx dy0 ratios) xdc ydc m sf rhs u p =
      (1 / (ratios.map Nat.cast).prod - 1) * diffusion (levelDx dx0 ratios) (levelDx dy0 ratios) xdc ydc m u p := by
    have e : trueResidual (levelDx dx0 ratios) (levelDx dy0 ratios) xdc ydc m sf rhs u p =
        scaledResidual ((ratios.map Nat.cast).prod) (levelDx dx0 ratios) (levelDx dy0 ratios) xdc ydc m sf rhs u p +
        (1 / (ratios.map Nat.cast).prod - 1) *
          diffusion (levelDx dx0 ratios) (levelDx dy0 ratios) xdc ydc m u p := by
      unfold trueResidual scaledResidual trueResidual diffusion
      ring
    rw [e, h0, zero_add]
  refine ⟨h1, ?_⟩
  rw [h1, mul_eq_zero]
  apply or_congr_left
  generalize (ratios.map (Nat.cast : ℕ → ℝ)).prod = R at *
  constructor
  · intro h
    have : 1 / R = 1 := by linarith
    rw [div_eq_one_iff_eq hp.ne'] at this
    exact this.symm
  · rintro rfl
    norm_num

/-- **C59**: on a level with total ratio `R` and no scalar field, a smoothing update multiplies the residual of its cell
by `1 - 1/R` instead of removing it (halving it on the first level for ratio 2). -/
theorem c59_violation_smoothing (dx0 dy0 : ℝ) (hx : dx0 ≠ 0) (hy : dy0 ≠ 0) (ratios : List ℕ)
    (hr : ∀ r ∈ ratios, 1 ≤ r) (xdc ydc m sf rhs u : ℤ × ℤ → ℝ) (B : Box2) (h : 0 ≤ B.jfirst) (off : ℤ)
    (hoff : off = 0 ∨ off = 1) (p : ℤ × ℤ) (hp : p ∈ cells2 B off) (hs : sf p = 0)
    (hd : ownSlope (onLevel2 dx0 dy0 ratios xdc ydc m sf rhs) p ≠ 0) :
    let C := onLevel2 dx0 dy0 ratios xdc ydc m sf rhs
    C.levelResidual (C.colourPass B off u).1 p = C.levelResidual u p * (1 - 1 / (ratios.map Nat.cast).prod) := by
  intro C
  rw [residual_after C B h off hoff u p hp]
  have hP := prod_pos_cast ratios hr
  have e : 1 / C.dudr p = (ratios.map Nat.cast).prod * ownSlope C p := by
    have hs' : C.sf p = 0 := hs
    unfold Coef2.dudr ownSlope
    rw [hs', sub_zero, sub_zero, one_div_one_div]
    show m p * (1 / levelDx dx0 ratios * (1 / levelDx dx0 ratios) * (xdc (p.1 + 1, p.2) + xdc p) +
      1 / levelDx dy0 ratios * (1 / levelDx dy0 ratios) * (ydc (p.1, p.2 + 1) + ydc p)) =
      (ratios.map Nat.cast).prod * (m p * (1 / levelDx dx0 ratios * (1 / dx0) * (xdc (p.1 + 1, p.2) + xdc p) +
        1 / levelDx dy0 ratios * (1 / dy0) * (ydc (p.1, p.2 + 1) + ydc p)))
    unfold levelDx
    generalize (ratios.map (Nat.cast : ℕ → ℝ)).prod = R at *
    field_simp
  have hd' : ownSlope C p ≠ 0 := hd
  have e2 : C.dudr p = 1 / ((ratios.map Nat.cast).prod * ownSlope C p) := by rw [← e, one_div_one_div]
  rw [e2]
  congr 1
  field_simp

example : ∃ (xdc ydc m sf rhs u : ℤ × ℤ → ℝ) (p : ℤ × ℤ),
    trueResidual (levelDx 1 [2]) (levelDx 1 [2]) xdc ydc m sf rhs u p ≠ 0 ∧
      (onLevel2 1 1 [2] xdc ydc m sf rhs).levelResidual u p = 0 := by
  refine ⟨fun _ => 1, fun _ => 1, fun _ => 1, fun _ => 0, fun _ => 4, fun q => (q.1 : ℝ) ^ 2, (0, 0), ?_, ?_⟩
  · unfold trueResidual levelDx; norm_num
  · rw [c59_violation_level_residual 1 1 one_ne_zero one_ne_zero [2] (by simp)]
    unfold scaledResidual trueResidual levelDx; norm_num

/-- **C59**, 3D: the same scaling. -/
theorem c59_violation_level_residual3 (dx0 dy0 dz0 : ℝ) (hx : dx0 ≠ 0) (hy : dy0 ≠ 0) (hz : dz0 ≠ 0) (ratios : List ℕ)
    (hr : ∀ r ∈ ratios, 1 ≤ r) (xdc ydc zdc m sf rhs u : ℤ × ℤ × ℤ → ℝ) (i j k : ℤ) :
    (onLevel3 dx0 dy0 dz0 ratios xdc ydc zdc m sf rhs).levelResidual u (i, j, k) =
      rhs (i, j, k) - m (i, j, k) / (ratios.map Nat.cast).prod *
        ((xdc (i + 1, j, k) * (u (i + 1, j, k) - u (i, j, k)) - xdc (i, j, k) * (u (i, j, k) - u (i - 1, j, k))) /
            levelDx dx0 ratios ^ 2 +
          (ydc (i, j + 1, k) * (u (i, j + 1, k) - u (i, j, k)) - ydc (i, j, k) * (u (i, j, k) - u (i, j - 1, k))) /
            levelDx dy0 ratios ^ 2 +
          (zdc (i, j, k + 1) * (u (i, j, k + 1) - u (i, j, k)) - zdc (i, j, k) * (u (i, j, k) - u (i, j, k - 1))) /
            levelDx dz0 ratios ^ 2) - sf (i, j, k) * u (i, j, k) := by
  have hp := prod_pos_cast ratios hr
  unfold Coef3.levelResidual Coef3.residual Coef3.xflux Coef3.yflux Coef3.zflux onLevel3 levelDx
  simp only [add_sub_cancel_right]
  generalize (ratios.map (Nat.cast : ℕ → ℝ)).prod = R at *
  field_simp

end AMPE.Smoother.Props
