import Verif.Model.PhaseConc
import Mathlib.Data.List.Nodup
import Mathlib.Tactic.Linarith
import Mathlib.Tactic.Ring
import Mathlib.Tactic.NormNum
import Mathlib.Tactic.FieldSimp

/-!
# C104: phase compositions read by the fluxes belong to the present state
-/

namespace AMPE.PhaseConc.Props

open AMPE.PhaseConc

/-! ## Specification -/

/-- A cell of a box. -/
def Mem (b : Box) (c : ℤ × ℤ) : Prop := b.lo0 ≤ c.1 ∧ c.1 ≤ b.hi0 ∧ b.lo1 ≤ c.2 ∧ c.2 ≤ b.hi1

/-- Cells in which ghost data of width `w` hold values of the present state: beyond a side of the domain only the first layer. -/
def Filled (w : ℤ) (t : Touch) (b : Box) (c : ℤ × ℤ) : Prop :=
  (b.lo0 - (if t.xlo then 1 else w) ≤ c.1 ∧ c.1 ≤ b.hi0 + (if t.xhi then 1 else w)) ∧
  (b.lo1 - (if t.ylo then 1 else w) ≤ c.2 ∧ c.2 ≤ b.hi1 + (if t.yhi then 1 else w))

/-- An array of ghost width `wa` holds a field on the filled cells within `w`. -/
def Holds {α : Type} (w : ℤ) (t : Touch) (b : Box) (wa : ℤ) (arr : ℤ → α) (f : ℤ × ℤ → α) : Prop :=
  ∀ c, Filled w t b c → arr ((b.grow wa).idx c) = f c

/-- Faces of a patch. -/
def XFace (b : Box) (i j : ℤ) : Prop := (b.lo0 ≤ i ∧ i ≤ b.hi0 + 1) ∧ (b.lo1 ≤ j ∧ j ≤ b.hi1)
def YFace (b : Box) (i j : ℤ) : Prop := (b.lo0 ≤ i ∧ i ≤ b.hi0) ∧ (b.lo1 ≤ j ∧ j ≤ b.hi1 + 1)

/-- Cells a face of the patch reads. -/
def Read (s : Stencil) (t : Touch) (b : Box) (c : ℤ × ℤ) : Prop :=
  ∃ i j, (XFace b i j ∧ c ∈ readsX s t b i j) ∨ (YFace b i j ∧ c ∈ readsY s t b i j)

/-! ## Boxes -/

theorem idx_inj (b : Box) {c d : ℤ × ℤ} (hc : Mem b c) (hd : Mem b d) (h : b.idx c = b.idx d) : c = d := by
  obtain ⟨x, y⟩ := c
  obtain ⟨x', y'⟩ := d
  simp only [Mem, Box.idx, Box.n0] at *
  have hy : y = y' := by
    rcases lt_trichotomy y y' with hlt | heq | hgt
    · exfalso
      have : (y' - b.lo1) * (b.hi0 - b.lo0 + 1) ≥ (y - b.lo1 + 1) * (b.hi0 - b.lo0 + 1) :=
        mul_le_mul_of_nonneg_right (by omega) (by omega)
      nlinarith
    · exact heq
    · exfalso
      have : (y - b.lo1) * (b.hi0 - b.lo0 + 1) ≥ (y' - b.lo1 + 1) * (b.hi0 - b.lo0 + 1) :=
        mul_le_mul_of_nonneg_right (by omega) (by omega)
      nlinarith
  subst hy
  have : x = x' := by linarith
  rw [this]

theorem idx_range (b : Box) {c : ℤ × ℤ} (hc : Mem b c) : 0 ≤ b.idx c ∧ b.idx c < b.n0 * b.n1 := by
  obtain ⟨x, y⟩ := c
  simp only [Mem, Box.idx, Box.n0, Box.n1] at *
  have h1 : 0 ≤ (y - b.lo1) * (b.hi0 - b.lo0 + 1) := mul_nonneg (by omega) (by omega)
  have h2 : (y - b.lo1) * (b.hi0 - b.lo0 + 1) ≤ (b.hi1 - b.lo1) * (b.hi0 - b.lo0 + 1) :=
    mul_le_mul_of_nonneg_right (by omega) (by omega)
  constructor
  · linarith
  · nlinarith

theorem mem_list (b : Box) (c : ℤ × ℤ) : c ∈ b.list ↔ Mem b c := by
  obtain ⟨x, y⟩ := c
  simp only [Box.list, List.mem_flatMap, List.mem_range, List.mem_map, Prod.mk.injEq, Mem, Box.n0, Box.n1]
  constructor
  · rintro ⟨j, hj, i, hi, rfl, rfl⟩
    omega
  · rintro ⟨h1, h2, h3, h4⟩
    exact ⟨(y - b.lo1).toNat, by omega, (x - b.lo0).toNat, by omega, by omega, by omega⟩

theorem nodup_list (b : Box) : b.list.Nodup := by
  unfold Box.list
  rw [List.nodup_flatMap]
  constructor
  · intro j _
    refine List.Nodup.map ?_ List.nodup_range
    intro i i' h
    simp only [Prod.mk.injEq, add_right_inj, Nat.cast_inj, and_true] at h
    exact h
  · refine List.Pairwise.imp ?_ (List.nodup_range (n := b.n1.toNat))
    intro j j' hne
    rw [Function.onFun, List.disjoint_left]
    intro c hc hc'
    simp only [List.mem_map, List.mem_range] at hc hc'
    obtain ⟨i, _, rfl⟩ := hc
    obtain ⟨i', _, h⟩ := hc'
    simp only [Prod.mk.injEq, add_right_inj, Nat.cast_inj] at h
    exact hne h.2.symm

theorem mem_grow {b : Box} {c : ℤ × ℤ} {w w' : ℤ} (h : w ≤ w') (hc : Mem (b.grow w) c) : Mem (b.grow w') c := by
  simp only [Mem, Box.grow] at *
  omega

theorem mem_grow_self {b : Box} {c : ℤ × ℤ} {w : ℤ} (h : 0 ≤ w) (hc : Mem b c) : Mem (b.grow w) c := by
  simp only [Mem, Box.grow] at *
  omega

theorem region_grow (m : Method) {w : ℤ} (hw : 0 ≤ w) (t : Touch) (b : Box) {c : ℤ × ℤ} (hc : Mem (region m w t b) c) : Mem (b.grow w) c := by
  cases m
  case calphad =>
    simp only [region] at hc
    by_cases h : 1 < w
    · rw [if_pos h] at hc
      obtain ⟨xlo, xhi, ylo, yhi⟩ := t
      cases xlo <;> cases xhi <;> cases ylo <;> cases yhi <;> simp [Mem, Box.grow] at * <;> omega
    · rw [if_neg h] at hc
      exact hc
  case partition => exact mem_grow_self hw hc
  case independent => exact mem_grow_self hw hc
  all_goals exact hc

/-- The split is computed wherever values are available, except for the two routines limited to the patch. -/
theorem filled_region (m : Method) (hm : m ≠ .partition ∧ m ≠ .independent) {w : ℤ} (hw : 1 ≤ w) (t : Touch) (b : Box) {c : ℤ × ℤ}
    (hc : Filled w t b c) : Mem (region m w t b) c := by
  have hg : Mem (b.grow w) c := by
    obtain ⟨xlo, xhi, ylo, yhi⟩ := t
    cases xlo <;> cases xhi <;> cases ylo <;> cases yhi <;> simp [Mem, Box.grow, Filled] at * <;> omega
  cases m
  case calphad =>
    simp only [region]
    by_cases h : 1 < w
    · rw [if_pos h]
      obtain ⟨xlo, xhi, ylo, yhi⟩ := t
      cases xlo <;> cases xhi <;> cases ylo <;> cases yhi <;> simp [Mem, Box.grow, Filled] at * <;> omega
    · rw [if_neg h]
      exact hg
  case partition => exact absurd rfl hm.1
  case independent => exact absurd rfl hm.2
  all_goals exact hg

/-! ## Loops -/

theorem fold_spec {V : Type} (pos : ℤ × ℤ → ℤ) (f : V → ℤ × ℤ → V) :
    ∀ (L : List (ℤ × ℤ)), L.Nodup → (∀ c ∈ L, ∀ d ∈ L, pos c = pos d → c = d) → ∀ out : ℤ → V,
      (∀ c ∈ L, (L.foldl (fun o c => Function.update o (pos c) (f (o (pos c)) c)) out) (pos c) = f (out (pos c)) c) ∧
      (∀ p, (∀ c ∈ L, pos c ≠ p) → (L.foldl (fun o c => Function.update o (pos c) (f (o (pos c)) c)) out) p = out p)
  | [], _, _, out => ⟨fun c hc => by simp at hc, fun p _ => rfl⟩
  | d :: L, hn, hi, out => by
    have hn' := List.nodup_cons.mp hn
    have ih := fold_spec pos f L hn'.2 (fun c hc e he => hi c (List.mem_cons_of_mem _ hc) e (List.mem_cons_of_mem _ he))
      (Function.update out (pos d) (f (out (pos d)) d))
    have hne : ∀ c ∈ L, pos c ≠ pos d := fun c hc h =>
      hn'.1 ((hi c (List.mem_cons_of_mem _ hc) d List.mem_cons_self h) ▸ hc)
    refine ⟨?_, ?_⟩
    · intro c hc
      rw [List.foldl_cons]
      rcases List.mem_cons.mp hc with rfl | hc
      · rw [ih.2 (pos c) hne, Function.update_self]
      · rw [ih.1 c hc, Function.update_of_ne (hne c hc)]
    · intro p hp
      rw [List.foldl_cons, ih.2 p (fun c hc => hp c (List.mem_cons_of_mem _ hc)),
        Function.update_of_ne (fun h => hp d List.mem_cons_self h.symm)]

section
variable {P C V : Type}

/-- The value of a cell as a function of what its own position held. -/
def own (m : Method) (solve : ℝ → P → C → V → V) (split : ℝ → P → C → V) (copy : C → V) (b : Box) (wd : Widths) (w : ℤ)
    (a : Inputs P C V) (v : V) (c : ℤ × ℤ) : V :=
  value m solve split copy b wd w a (fun _ => v) c

theorem value_own (m : Method) (solve : ℝ → P → C → V → V) (split : ℝ → P → C → V) (copy : C → V) (b : Box) (wd : Widths) (w : ℤ)
    (a : Inputs P C V) (o : ℤ → V) (c : ℤ × ℤ) :
    value m solve split copy b wd w a o c = own m solve split copy b wd w a (o ((b.grow w).idx c)) c := by
  cases m <;> rfl

theorem fill_spec (m : Method) (solve : ℝ → P → C → V → V) (split : ℝ → P → C → V) (copy : C → V) (b : Box) (wd : Widths) {w : ℤ} (hw : 0 ≤ w)
    (t : Touch) (a : Inputs P C V) (out : ℤ → V) :
    (∀ c, Mem (region m w t b) c → fill m solve split copy b wd w t a out ((b.grow w).idx c) =
      own m solve split copy b wd w a (out ((b.grow w).idx c)) c) ∧
    (∀ p, (∀ c, Mem (region m w t b) c → (b.grow w).idx c ≠ p) → fill m solve split copy b wd w t a out p = out p) := by
  have key := fold_spec (b.grow w).idx (own m solve split copy b wd w a) (region m w t b).list (nodup_list _)
    (fun c hc d hd h => idx_inj (b.grow w) (region_grow m hw t b ((mem_list _ c).mp hc)) (region_grow m hw t b ((mem_list _ d).mp hd)) h) out
  have e : fill m solve split copy b wd w t a out =
      (region m w t b).list.foldl (fun o c => Function.update o ((b.grow w).idx c)
        (own m solve split copy b wd w a (o ((b.grow w).idx c)) c)) out := by
    unfold fill
    simp only [value_own]
  rw [e]
  exact ⟨fun c hc => key.1 c ((mem_list _ c).mpr hc), fun p hp => key.2 p (fun c hc => hp c ((mem_list _ c).mp hc))⟩

theorem diluteCell_iter (solve : ℝ → P → C → V → V) (a : Inputs P C V) (r : Run V) (n : ℕ) :
    (diluteCell solve a)^[n] r = ⟨r.pf + n, r.te + n, r.ci + n,
      (List.range n).foldl (fun o (i : ℕ) => Function.update o (r.ci + i) (solve (a.te (r.te + i)) (a.pf (r.pf + i)) (a.conc (r.pf + i)) (o (r.ci + i))))
        r.out⟩ := by
  induction n with
  | zero => simp
  | succ n ih =>
    rw [Function.iterate_succ_apply', ih, List.range_succ, List.foldl_append]
    simp only [diluteCell, List.foldl_cons, List.foldl_nil, Nat.cast_add, Nat.cast_one, add_assoc]

theorem diluteRow_iter (solve : ℝ → P → C → V → V) (a : Inputs P C V) (wd : Widths) (w : ℤ) (n : ℕ) (r : Run V) (k : ℕ) :
    (diluteRow solve a wd w n)^[k] r = ⟨r.pf + k * (n + 2 * (wd.pf - w)), r.te + k * (n + 2 * (wd.te - w)), r.ci + k * n,
      (List.range k).foldl (fun o (j : ℕ) => (List.range n).foldl (fun o (i : ℕ) =>
        Function.update o (r.ci + j * n + i) (solve (a.te (r.te + j * (n + 2 * (wd.te - w)) + i)) (a.pf (r.pf + j * (n + 2 * (wd.pf - w)) + i))
          (a.conc (r.pf + j * (n + 2 * (wd.pf - w)) + i)) (o (r.ci + j * n + i)))) o) r.out⟩ := by
  induction k with
  | zero => simp
  | succ k ih =>
    rw [Function.iterate_succ_apply', ih, List.range_succ, List.foldl_append]
    simp only [diluteRow, diluteCell_iter, List.foldl_cons, List.foldl_nil, Nat.cast_add, Nat.cast_one, Run.mk.injEq, and_true]
    refine ⟨by ring, by ring, by ring⟩

/-- The running positions are the positions of the cell. -/
theorem diluteFill_eq (solve : ℝ → P → C → V → V) (split : ℝ → P → C → V) (copy : C → V) (b : Box) (wd : Widths) (w : ℤ)
    (hb : 0 ≤ (b.grow w).n0) (t : Touch) (a : Inputs P C V) (out : ℤ → V) :
    diluteFill solve b wd w a out = fill .dilute solve split copy b wd w t a out := by
  unfold fill
  show ((diluteRow solve a wd w (b.grow w).n0.toNat)^[(b.grow w).n1.toNat]
    ⟨(b.grow wd.pf).idx ((b.grow w).lo0, (b.grow w).lo1), (b.grow wd.te).idx ((b.grow w).lo0, (b.grow w).lo1),
      (b.grow w).idx ((b.grow w).lo0, (b.grow w).lo1), out⟩).out = _
  rw [diluteRow_iter]
  simp only [region, Box.list, List.foldl_flatMap, List.foldl_map]
  have hn : (((b.grow w).n0.toNat : ℕ) : ℤ) = (b.grow w).n0 := Int.toNat_of_nonneg hb
  rw [hn]
  congr 1
  funext o j
  congr 1
  funext o i
  have e1 : (b.grow w).idx ((b.grow w).lo0, (b.grow w).lo1) + (j : ℤ) * (b.grow w).n0 + i =
      (b.grow w).idx ((b.grow w).lo0 + (i : ℤ), (b.grow w).lo1 + (j : ℤ)) := by
    simp only [Box.idx]; ring
  have e2 : ∀ x, (b.grow x).idx ((b.grow w).lo0, (b.grow w).lo1) + (j : ℤ) * ((b.grow w).n0 + 2 * (x - w)) + i =
      (b.grow x).idx ((b.grow w).lo0 + (i : ℤ), (b.grow w).lo1 + (j : ℤ)) := by
    intro x
    simp only [Box.idx, Box.grow, Box.n0]; ring
  rw [e1, e2, e2]
  rfl

theorem compute_fill (m : Method) (solve : ℝ → P → C → V → V) (split : ℝ → P → C → V) (copy : C → V) (b : Box) (wd : Widths) {w : ℤ} (hw : 0 ≤ w)
    (hb : b.lo0 ≤ b.hi0) (t : Touch) (a : Inputs P C V) (out : ℤ → V) :
    compute m solve split copy b wd w t a out = fill m solve split copy b wd w t a out := by
  cases m
  case dilute => exact diluteFill_eq solve split copy b wd w (by simp only [Box.grow, Box.n0]; omega) t a out
  all_goals rfl

/-! ## Cells read -/

theorem read_filled (s : Stencil) (up : Bool) (t : Touch) (b : Box) {c : ℤ × ℤ} (hc : Read s t b c) : Filled (nghosts s up) t b c := by
  obtain ⟨x, y⟩ := c
  obtain ⟨xlo, xhi, ylo, yhi⟩ := t
  have h12 : 1 ≤ nghosts s up ∧ (s = .order4 → nghosts s up = 2) := by
    unfold nghosts
    by_cases h : s = .order4 ∨ up = true
    · rw [if_pos h]; exact ⟨by norm_num, fun _ => rfl⟩
    · rw [if_neg h]; exact ⟨le_rfl, fun h' => absurd (Or.inl h') h⟩
  generalize nghosts s up = w at h12 ⊢
  obtain ⟨i, j, h⟩ := hc
  have lx : ∀ q : Bool, 1 ≤ (if q = true then (1 : ℤ) else w) := by
    intro q; cases q <;> simp <;> omega
  rcases h with ⟨hf, hr⟩ | ⟨hf, hr⟩
  · simp only [XFace] at hf
    cases s
    · simp only [readsX, List.mem_cons, Prod.mk.injEq, List.not_mem_nil, or_false] at hr
      have := lx xlo; have := lx xhi; have := lx ylo; have := lx yhi
      simp only [Filled]
      omega
    · simp only [readsX, List.mem_cons, Prod.mk.injEq, List.not_mem_nil, or_false] at hr
      have := lx xlo; have := lx xhi; have := lx ylo; have := lx yhi
      simp only [Filled]
      omega
    · have hw := h12.2 rfl
      subst hw
      have := lx ylo; have := lx yhi
      simp only [readsX] at hr
      simp only [Filled]
      cases xlo <;> cases xhi <;> simp only [Bool.false_eq_true, false_and, true_and, or_false, false_or, or_self, if_false, if_true] at hr ⊢ <;>
        (try split_ifs at hr) <;> simp only [List.mem_cons, Prod.mk.injEq, List.not_mem_nil, or_false] at hr <;> omega
  · simp only [YFace] at hf
    cases s
    · simp only [readsY, List.mem_cons, Prod.mk.injEq, List.not_mem_nil, or_false] at hr
      have := lx xlo; have := lx xhi; have := lx ylo; have := lx yhi
      simp only [Filled]
      omega
    · simp only [readsY, List.mem_cons, Prod.mk.injEq, List.not_mem_nil, or_false] at hr
      have := lx xlo; have := lx xhi; have := lx ylo; have := lx yhi
      simp only [Filled]
      omega
    · have hw := h12.2 rfl
      subst hw
      have := lx xlo; have := lx xhi
      simp only [readsY] at hr
      simp only [Filled]
      cases ylo <;> cases yhi <;> simp only [Bool.false_eq_true, false_and, true_and, or_false, false_or, or_self, if_false, if_true] at hr ⊢ <;>
        (try split_ifs at hr) <;> simp only [List.mem_cons, Prod.mk.injEq, List.not_mem_nil, or_false] at hr <;> omega

theorem nghosts_pos (s : Stencil) (up : Bool) : 1 ≤ nghosts s up := by
  unfold nghosts
  split_ifs <;> norm_num

/-- **C104.** With any of the equilibrium routines, any stencil and any patch, each phase composition a flux reads is the split of the
temperature, order parameters and composition of that cell in the present state, whatever the array held before. -/
theorem c104_present (m : Method) (hm : m ≠ .partition ∧ m ≠ .independent) (s : Stencil) (up : Bool) (t : Touch) (b : Box)
    (hb : b.lo0 ≤ b.hi0) (wd : Widths) (solve : ℝ → P → C → V → V) (split : ℝ → P → C → V) (copy : C → V)
    (R : ℝ → P → C → V → Prop) (hR : ∀ T p x g, R T p x (solve T p x g))
    (a : Inputs P C V) (T : ℤ × ℤ → ℝ) (φ : ℤ × ℤ → P) (x : ℤ × ℤ → C)
    (hT : Holds (nghosts s up) t b wd.te a.te T) (hφ : Holds (nghosts s up) t b wd.pf a.pf φ) (hx : Holds (nghosts s up) t b wd.pf a.conc x)
    (out : ℤ → V) (c : ℤ × ℤ) (hc : Read s t b c) :
    R (T c) (φ c) (x c) (compute m solve split copy b wd (nghosts s up) t a out ((b.grow (nghosts s up)).idx c)) := by
  have hp := nghosts_pos s up
  have hf := read_filled s up t b hc
  rw [compute_fill m solve split copy b wd (by omega) hb,
    (fill_spec m solve split copy b wd (by omega) t a out).1 c (filled_region m hm hp t b hf)]
  cases m
  case partition => exact absurd rfl hm.1
  case independent => exact absurd rfl hm.2
  all_goals
    simp only [own, value]
    rw [hT c hf, hφ c hf, hx c hf]
    exact hR _ _ _ _

/-- Cells written and read lie in the arrays, if these have at least the ghost cells of the result. -/
theorem c104_storage (m : Method) (t : Touch) (b : Box) {w wa : ℤ} (hw : 0 ≤ w) (hwa : w ≤ wa) (c : ℤ × ℤ) (hc : Mem (region m w t b) c) :
    0 ≤ (b.grow wa).idx c ∧ (b.grow wa).idx c < (b.grow wa).n0 * (b.grow wa).n1 :=
  idx_range _ (mem_grow hwa (region_grow m hw t b hc))

/-- The fluxes read within the arrays. -/
theorem c104_storage_fluxes (s : Stencil) (up : Bool) (t : Touch) (b : Box) (c : ℤ × ℤ) (hc : Read s t b c) :
    0 ≤ (b.grow (nghosts s up)).idx c ∧
      (b.grow (nghosts s up)).idx c < (b.grow (nghosts s up)).n0 * (b.grow (nghosts s up)).n1 := by
  have hp := nghosts_pos s up
  exact idx_range _ (region_grow .calphad (by omega) t b
    (filled_region .calphad ⟨by decide, by decide⟩ hp t b (read_filled s up t b hc)))

/-- Nothing else is written. -/
theorem c104_elsewhere (m : Method) (t : Touch) (b : Box) (hb : b.lo0 ≤ b.hi0) (wd : Widths) {w : ℤ} (hw : 0 ≤ w) (solve : ℝ → P → C → V → V)
    (split : ℝ → P → C → V) (copy : C → V) (a : Inputs P C V) (out : ℤ → V) (p : ℤ) (hp : p < 0 ∨ (b.grow w).n0 * (b.grow w).n1 ≤ p) :
    compute m solve split copy b wd w t a out p = out p := by
  rw [compute_fill m solve split copy b wd hw hb]
  refine (fill_spec m solve split copy b wd hw t a out).2 p ?_
  intro c hc he
  have := idx_range _ (region_grow m hw t b hc)
  omega

/-- The cells behind an x face: its two neighbours (regular), those and the cells above and below them (isotropic), two cells on either side
except at the boundary of the domain (fourth order). -/
theorem c104_cells_x (s : Stencil) (t : Touch) (b : Box) (i j : ℤ) (c : ℤ × ℤ) :
    c ∈ readsX s t b i j ↔ match s with
      | .regular => (i - 1 ≤ c.1 ∧ c.1 ≤ i) ∧ c.2 = j
      | .isotropic => (i - 1 ≤ c.1 ∧ c.1 ≤ i) ∧ j - 1 ≤ c.2 ∧ c.2 ≤ j + 1
      | .order4 => c.2 = j ∧ if (t.xlo = true ∧ i = b.lo0) ∨ (t.xhi = true ∧ i = b.hi0 + 1) then i - 1 ≤ c.1 ∧ c.1 ≤ i else i - 2 ≤ c.1 ∧ c.1 ≤ i + 1 := by
  obtain ⟨x, y⟩ := c
  cases s
  · simp only [readsX, List.mem_cons, Prod.mk.injEq, List.not_mem_nil, or_false]; omega
  · simp only [readsX, List.mem_cons, Prod.mk.injEq, List.not_mem_nil, or_false]; omega
  · simp only [readsX]
    split_ifs <;> simp only [List.mem_cons, Prod.mk.injEq, List.not_mem_nil, or_false] <;> omega

theorem c104_cells_y (s : Stencil) (t : Touch) (b : Box) (i j : ℤ) (c : ℤ × ℤ) :
    c ∈ readsY s t b i j ↔ match s with
      | .regular => c.1 = i ∧ j - 1 ≤ c.2 ∧ c.2 ≤ j
      | .isotropic => (i - 1 ≤ c.1 ∧ c.1 ≤ i + 1) ∧ j - 1 ≤ c.2 ∧ c.2 ≤ j
      | .order4 => c.1 = i ∧ if (t.ylo = true ∧ j = b.lo1) ∨ (t.yhi = true ∧ j = b.hi1 + 1) then j - 1 ≤ c.2 ∧ c.2 ≤ j else j - 2 ≤ c.2 ∧ c.2 ≤ j + 1 := by
  obtain ⟨x, y⟩ := c
  cases s
  · simp only [readsY, List.mem_cons, Prod.mk.injEq, List.not_mem_nil, or_false]; omega
  · simp only [readsY, List.mem_cons, Prod.mk.injEq, List.not_mem_nil, or_false]; omega
  · simp only [readsY]
    split_ifs <;> simp only [List.mem_cons, Prod.mk.injEq, List.not_mem_nil, or_false] <;> omega

/-- **C104**: with an equilibrium routine that satisfies the split exactly, the flux through every x face of the patch is that of the present
compositions of the two phases in the two cells, each with its own diffusivity. -/
theorem c104_flux_present (m : Method) (hm : m ≠ .partition ∧ m ≠ .independent) (up : Bool) (t : Touch) (b : Box) (hb : b.lo0 ≤ b.hi0) (wd : Widths)
    (cl ca : ℝ → P → C → ℝ) (split : ℝ → P → C → ℝ × ℝ) (copy : C → ℝ × ℝ)
    (a : Inputs P C (ℝ × ℝ)) (T : ℤ × ℤ → ℝ) (φ : ℤ × ℤ → P) (x : ℤ × ℤ → C)
    (hT : Holds (nghosts .regular up) t b wd.te a.te T) (hφ : Holds (nghosts .regular up) t b wd.pf a.pf φ)
    (hx : Holds (nghosts .regular up) t b wd.pf a.conc x) (out : ℤ → ℝ × ℝ) (dx : ℝ) (dl da : ℤ × ℤ → ℝ) (i j : ℤ) (hf : XFace b i j) :
    fluxX b (nghosts .regular up) dx dl da
        (compute m (fun T p x _ => (cl T p x, ca T p x)) split copy b wd (nghosts .regular up) t a out) i j
      = (dl (i, j) * (cl (T (i, j)) (φ (i, j)) (x (i, j)) - cl (T (i - 1, j)) (φ (i - 1, j)) (x (i - 1, j)))
          + da (i, j) * (ca (T (i, j)) (φ (i, j)) (x (i, j)) - ca (T (i - 1, j)) (φ (i - 1, j)) (x (i - 1, j)))) / dx := by
  have key : ∀ c, c ∈ readsX .regular t b i j →
      compute m (fun T p x _ => (cl T p x, ca T p x)) split copy b wd (nghosts .regular up) t a out ((b.grow (nghosts .regular up)).idx c)
        = (cl (T c) (φ c) (x c), ca (T c) (φ c) (x c)) := fun c hc =>
    c104_present m hm .regular up t b hb wd (fun T p x _ => (cl T p x, ca T p x)) split copy (fun T p x v => v = (cl T p x, ca T p x))
      (fun _ _ _ _ => rfl) a T φ x hT hφ hx out c ⟨i, j, Or.inl ⟨hf, hc⟩⟩
  unfold fluxX
  rw [key (i, j) (by simp [readsX]), key (i - 1, j) (by simp [readsX])]
  ring

/-! ## Routines limited to the patch -/

/-- With partition coefficients, or without a model of the split, the cells of the patch are right. -/
theorem c104_patch_partial (b : Box) (hb : b.lo0 ≤ b.hi0) (t : Touch) (wd : Widths) {w : ℤ} (hw : 1 ≤ w) (solve : ℝ → P → C → V → V)
    (split : ℝ → P → C → V) (copy : C → V) (a : Inputs P C V) (φ : ℤ × ℤ → P) (x : ℤ × ℤ → C) (k : ℤ × ℤ → ℝ)
    (hφ : Holds w t b wd.pf a.pf φ) (hx : Holds w t b wd.pf a.conc x) (hk : Holds w t b wd.k a.k k) (out : ℤ → V) (c : ℤ × ℤ) (hc : Mem b c) :
    compute .partition solve split copy b wd w t a out ((b.grow w).idx c) = split (k c) (φ c) (x c) ∧
      compute .independent solve split copy b wd w t a out ((b.grow w).idx c) = copy (x c) := by
  have hf : Filled w t b c := by
    obtain ⟨xlo, xhi, ylo, yhi⟩ := t
    cases xlo <;> cases xhi <;> cases ylo <;> cases yhi <;> simp [Mem, Filled] at * <;> omega
  constructor
  · rw [compute_fill .partition solve split copy b wd (by omega) hb, (fill_spec .partition solve split copy b wd (by omega) t a out).1 c hc]
    simp only [own, value]
    rw [hφ c hf, hx c hf, hk c hf]
  · rw [compute_fill .independent solve split copy b wd (by omega) hb, (fill_spec .independent solve split copy b wd (by omega) t a out).1 c hc]
    simp only [own, value]
    rw [hx c hf]

/-- Next to the patch they leave what the array held. -/
theorem untouched (m : Method) (hm : m = .partition ∨ m = .independent) (b : Box) (hb : b.lo0 ≤ b.hi0) (t : Touch) (wd : Widths) {w : ℤ}
    (hw : 0 ≤ w) (solve : ℝ → P → C → V → V) (split : ℝ → P → C → V) (copy : C → V) (a : Inputs P C V) (out : ℤ → V) (c : ℤ × ℤ)
    (hg : Mem (b.grow w) c) (hc : ¬ Mem b c) :
    compute m solve split copy b wd w t a out ((b.grow w).idx c) = out ((b.grow w).idx c) := by
  rw [compute_fill m solve split copy b wd hw hb]
  refine (fill_spec m solve split copy b wd hw t a out).2 _ ?_
  intro d hd he
  have hdb : Mem b d := by rcases hm with rfl | rfl <;> exact hd
  exact hc (idx_inj _ (mem_grow_self hw hdb) hg he ▸ hdb)

/-- Violation: with these two routines every patch has cells its fluxes read that are never written, whatever the stencil. -/
theorem c104_violation_ghosts (m : Method) (hm : m = .partition ∨ m = .independent) (s : Stencil) (up : Bool) (t : Touch) (b : Box)
    (hb : b.lo0 ≤ b.hi0) (wd : Widths) (solve : ℝ → P → C → V → V) (split : ℝ → P → C → V) (copy : C → V) (a : Inputs P C V) (out : ℤ → V)
    (j : ℤ) (hj : b.lo1 ≤ j ∧ j ≤ b.hi1) :
    Read s t b (b.lo0 - 1, j) ∧ Read s t b (b.hi0 + 1, j) ∧
      compute m solve split copy b wd (nghosts s up) t a out ((b.grow (nghosts s up)).idx (b.lo0 - 1, j)) =
        out ((b.grow (nghosts s up)).idx (b.lo0 - 1, j)) ∧
      compute m solve split copy b wd (nghosts s up) t a out ((b.grow (nghosts s up)).idx (b.hi0 + 1, j)) =
        out ((b.grow (nghosts s up)).idx (b.hi0 + 1, j)) := by
  have hp := nghosts_pos s up
  refine ⟨⟨b.lo0, j, Or.inl ⟨by simp only [XFace]; omega, ?_⟩⟩, ⟨b.hi0 + 1, j, Or.inl ⟨by simp only [XFace]; omega, ?_⟩⟩, ?_, ?_⟩
  · cases s
    · simp [readsX]
    · simp [readsX]
    · simp only [readsX]; split_ifs <;> simp
  · cases s
    · simp [readsX]
    · simp [readsX]
    · simp only [readsX]; split_ifs <;> simp
  · exact untouched m hm b hb t wd (by omega) solve split copy a out _ (by simp only [Mem, Box.grow]; omega) (by simp only [Mem]; omega)
  · exact untouched m hm b hb t wd (by omega) solve split copy a out _ (by simp only [Mem, Box.grow]; omega) (by simp only [Mem]; omega)

end

/-- Violation: arrays zeroed when allocated, the same composition everywhere and no model of the split.  No flux should flow; across the two
ends of every row the computed flux is the whole composition times the diffusion over the spacing, with opposite signs, so that the first cell
of a patch has a rate of change, and two patches disagree about the face between them. -/
theorem c104_violation_flux (b b' : Box) (hb : b.lo0 < b.hi0) (hb' : b'.lo0 ≤ b'.hi0) (t t' : Touch) (wd : Widths) (w : ℤ) (hw : 1 ≤ w)
    (dx : ℝ) (hdx : dx ≠ 0) (dl da : ℤ × ℤ → ℝ) (x0 : ℝ) (solve : ℝ → ℝ → ℝ → ℝ × ℝ → ℝ × ℝ) (split : ℝ → ℝ → ℝ → ℝ × ℝ)
    (a a' : Inputs ℝ ℝ (ℝ × ℝ)) (hx : Holds w t b wd.pf a.conc fun _ => x0) (hx' : Holds w t' b' wd.pf a'.conc fun _ => x0)
    (j : ℤ) (hj : b.lo1 ≤ j ∧ j ≤ b.hi1) (hj' : b'.lo1 ≤ j ∧ j ≤ b'.hi1) (hn : b'.lo0 = b.hi0 + 1) :
    let F := fluxX b w dx dl da (compute .independent solve split (fun c => (c, c)) b wd w t a fun _ => 0)
    let F' := fluxX b' w dx dl da (compute .independent solve split (fun c => (c, c)) b' wd w t' a' fun _ => 0)
    F b.lo0 j = (dl (b.lo0, j) + da (b.lo0, j)) * x0 / dx ∧
      F (b.hi0 + 1) j = -((dl (b.hi0 + 1, j) + da (b.hi0 + 1, j)) * x0 / dx) ∧
      (∀ i, b.lo0 < i → i ≤ b.hi0 → F i j = 0) ∧
      (F (b.lo0 + 1) j - F b.lo0 j) / dx = -((dl (b.lo0, j) + da (b.lo0, j)) * x0 / dx ^ 2) ∧
      F (b.hi0 + 1) j = -F' b'.lo0 j := by
  have inside : ∀ (b : Box) (t : Touch) (a : Inputs ℝ ℝ (ℝ × ℝ)), b.lo0 ≤ b.hi0 → Holds w t b wd.pf a.conc (fun _ => x0) → ∀ c, Mem b c →
      compute .independent solve split (fun c => (c, c)) b wd w t a (fun _ => 0) ((b.grow w).idx c) = (x0, x0) := by
    intro b t a hb hx c hc
    have hf : Filled w t b c := by
      obtain ⟨xlo, xhi, ylo, yhi⟩ := t
      cases xlo <;> cases xhi <;> cases ylo <;> cases yhi <;> simp [Mem, Filled] at * <;> omega
    rw [compute_fill .independent solve split _ b wd (by omega) hb, (fill_spec .independent solve split _ b wd (by omega) t a _).1 c hc]
    simp only [own, value]
    rw [hx c hf]
  have outside : ∀ (b : Box) (t : Touch) (a : Inputs ℝ ℝ (ℝ × ℝ)), b.lo0 ≤ b.hi0 → ∀ c, Mem (b.grow w) c → ¬ Mem b c →
      compute .independent solve split (fun c => (c, c)) b wd w t a (fun _ => 0) ((b.grow w).idx c) = 0 := by
    intro b t a hb c hg hc
    rw [untouched .independent (Or.inr rfl) b hb t wd (by omega) solve split _ a _ c hg hc]
  intro F F'
  have e1 : F b.lo0 j = (dl (b.lo0, j) + da (b.lo0, j)) * x0 / dx := by
    simp only [F, fluxX]
    rw [inside b t a hb.le hx (b.lo0, j) (by simp only [Mem]; omega),
      outside b t a hb.le (b.lo0 - 1, j) (by simp only [Mem, Box.grow]; omega) (by simp only [Mem]; omega)]
    simp only [Prod.fst_zero, Prod.snd_zero]
    ring
  have e2 : F (b.hi0 + 1) j = -((dl (b.hi0 + 1, j) + da (b.hi0 + 1, j)) * x0 / dx) := by
    simp only [F, fluxX, add_sub_cancel_right]
    rw [inside b t a hb.le hx (b.hi0, j) (by simp only [Mem]; omega),
      outside b t a hb.le (b.hi0 + 1, j) (by simp only [Mem, Box.grow]; omega) (by simp only [Mem]; omega)]
    simp only [Prod.fst_zero, Prod.snd_zero]
    ring
  have e3 : ∀ i, b.lo0 < i → i ≤ b.hi0 → F i j = 0 := by
    intro i h1 h2
    simp only [F, fluxX]
    rw [inside b t a hb.le hx (i, j) (by simp only [Mem]; omega), inside b t a hb.le hx (i - 1, j) (by simp only [Mem]; omega)]
    ring
  have e4 : F' b'.lo0 j = (dl (b'.lo0, j) + da (b'.lo0, j)) * x0 / dx := by
    simp only [F', fluxX]
    rw [inside b' t' a' hb' hx' (b'.lo0, j) (by simp only [Mem]; omega),
      outside b' t' a' hb' (b'.lo0 - 1, j) (by simp only [Mem, Box.grow]; omega) (by simp only [Mem]; omega)]
    simp only [Prod.fst_zero, Prod.snd_zero]
    ring
  refine ⟨e1, e2, e3, ?_, ?_⟩
  · rw [e3 (b.lo0 + 1) (by omega) (by omega), e1]
    field_simp
    ring
  · rw [e2, e4, hn]

/-! ## Work arrays of the CALPHAD routine -/

/-- The routine stays within its local arrays exactly for at most three order parameters and two species, and only one species with three
order parameters. -/
theorem c104_workspace_partial (nphases nc : ℕ) : inBounds nphases nc ↔ nphases ≤ 3 ∧ nc ≤ 2 ∧ (nphases = 3 → nc ≤ 1) := by
  unfold inBounds xEntries
  constructor
  · rintro ⟨h1, h2, h3⟩
    have a1 : nphases ≤ 3 := by
      by_contra h
      have := h1 3 (List.mem_range.mpr (by omega))
      omega
    have a2 : nc ≤ 2 := by
      by_contra h
      have := h2 2 (List.mem_range.mpr (by omega))
      omega
    refine ⟨a1, a2, fun h => ?_⟩
    by_contra hc
    have := h3 (1 + 2 * nc) (List.mem_flatMap.mpr ⟨1, List.mem_range.mpr (by omega), by rw [if_pos h]; simp⟩)
    omega
  · rintro ⟨h1, h2, h3⟩
    refine ⟨fun i hi => ?_, fun i hi => ?_, fun i hi => ?_⟩
    · have := List.mem_range.mp hi; omega
    · have := List.mem_range.mp hi; omega
    · obtain ⟨ic, hic, h⟩ := List.mem_flatMap.mp hi
      have := List.mem_range.mp hic
      split_ifs at h with h'
      · have := h3 h'
        simp at h
        omega
      · simp at h
        omega

/-- Violation: the ternary routine chosen for every number of order parameters overruns them from three on. -/
theorem c104_violation_workspace (nphases : ℕ) (h : 3 ≤ nphases) : ¬ inBounds nphases 2 := by
  rw [c104_workspace_partial]
  omega

/-! ## Examples -/

/-- A patch in a corner of the domain with the fourth-order stencil: the second layer is not asked for across the boundary. -/
example : Read .order4 ⟨true, false, false, false⟩ ⟨0, 3, 4, 7⟩ (5, 5) ∧ ¬ Read .order4 ⟨true, false, false, false⟩ ⟨0, 3, 4, 7⟩ (-2, 5) := by
  constructor
  · exact ⟨4, 5, Or.inl ⟨by simp [XFace], by simp [readsX]⟩⟩
  · intro h
    have := read_filled .order4 false _ _ h
    simp [Filled] at this

/-- Values, with the library routine replaced by a sum. -/
example (m : Method) (hm : m ≠ .partition ∧ m ≠ .independent) (out : ℤ → ℝ) :
    compute m (fun T p x _ => T + p + x) (fun _ _ _ => 0) (fun _ => 0) ⟨0, 3, 0, 3⟩ ⟨1, 1, 0⟩ 1 ⟨true, true, true, true⟩
      ⟨fun _ => 1, fun _ => 2, fun _ => 3, fun _ => 0, fun _ => 0⟩ out ((Box.grow ⟨0, 3, 0, 3⟩ 1).idx (-1, 2)) = 6 := by
  have := c104_present m hm .regular false ⟨true, true, true, true⟩ ⟨0, 3, 0, 3⟩ (by norm_num) ⟨1, 1, 0⟩
    (fun (T p x _ : ℝ) => T + p + x) (fun _ _ _ => 0) (fun _ => 0) (fun T p x v => v = T + p + x) (fun _ _ _ _ => rfl)
    ⟨fun _ => 1, fun _ => 2, fun _ => 3, fun _ => 0, fun _ => 0⟩ (fun _ => 1) (fun _ => 2) (fun _ => 3) (fun _ _ => rfl) (fun _ _ => rfl)
    (fun _ _ => rfl) out (-1, 2) ⟨0, 2, Or.inl ⟨by simp [XFace], by simp [readsX]⟩⟩
  have hn : nghosts .regular false = 1 := by simp [nghosts]
  rw [hn] at this
  rw [this]
  norm_num

end AMPE.PhaseConc.Props
