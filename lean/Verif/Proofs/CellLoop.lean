import Verif.Model.DrivingForce
import Mathlib.Data.List.Nodup
import Mathlib.Tactic.Linarith
import Mathlib.Tactic.Ring

/-!
# Loops over the cells of a box and the planes of an array
-/

namespace AMPE.DrivingForce

/-- Cells of a box. -/
def Box.Has (b : Box) (c : Cell) : Prop :=
  b.lo0 ≤ c.1 ∧ c.1 ≤ b.hi0 ∧ b.lo1 ≤ c.2.1 ∧ c.2.1 ≤ b.hi1 ∧ b.lo2 ≤ c.2.2 ∧ c.2.2 ≤ b.hi2

theorem lex_inj {n a b x y : ℤ} (hx : 0 ≤ x ∧ x < n) (hy : 0 ≤ y ∧ y < n) (h : x + a * n = y + b * n) : a = b ∧ x = y := by
  have hab : a = b := by
    rcases lt_trichotomy a b with hlt | heq | hgt
    · exfalso
      have : b * n ≥ (a + 1) * n := mul_le_mul_of_nonneg_right (by omega) (by omega)
      nlinarith
    · exact heq
    · exfalso
      have : a * n ≥ (b + 1) * n := mul_le_mul_of_nonneg_right (by omega) (by omega)
      nlinarith
  subst hab
  exact ⟨rfl, by linarith⟩

theorem lex_range {n k a x : ℤ} (hx : 0 ≤ x ∧ x < n) (ha : 0 ≤ a ∧ a < k) : 0 ≤ x + a * n ∧ x + a * n < n * k := by
  have h1 : 0 ≤ a * n := mul_nonneg ha.1 (by omega)
  have h2 : a * n ≤ (k - 1) * n := mul_le_mul_of_nonneg_right (by omega) (by omega)
  constructor
  · linarith
  · nlinarith

theorem Box.row_range (b : Box) {c : Cell} (hc : b.Has c) :
    0 ≤ (c.1 - b.lo0) + (c.2.1 - b.lo1) * b.n0 ∧ (c.1 - b.lo0) + (c.2.1 - b.lo1) * b.n0 < b.n0 * b.n1 := by
  unfold Box.Has at hc
  exact lex_range (by unfold Box.n0; omega) (by unfold Box.n1; omega)

theorem Box.idx_range (b : Box) {c : Cell} (hc : b.Has c) : 0 ≤ b.idx c ∧ b.idx c < b.size := by
  have h := b.row_range hc
  unfold Box.Has at hc
  exact lex_range h (by unfold Box.n2; omega)

theorem Box.idx_inj (b : Box) {c d : Cell} (hc : b.Has c) (hd : b.Has d) (h : b.idx c = b.idx d) : c = d := by
  obtain ⟨x, y, z⟩ := c
  obtain ⟨x', y', z'⟩ := d
  have h1 := lex_inj (b.row_range hc) (b.row_range hd) h
  unfold Box.Has at hc hd
  simp only at *
  have h2 := lex_inj (n := b.n0) (by unfold Box.n0; omega) (by unfold Box.n0; omega) h1.2
  obtain ⟨e1, e2⟩ := h1
  obtain ⟨e3, e4⟩ := h2
  have : x = x' := by omega
  have : y = y' := by omega
  have : z = z' := by omega
  subst_vars
  rfl

/-- Different planes or different cells have different positions. -/
theorem Box.plane_inj (b : Box) {p q : ℕ} {c d : Cell} (hc : b.Has c) (hd : b.Has d) (h : b.plane p c = b.plane q d) : p = q ∧ c = d := by
  unfold Box.plane at h
  have := lex_inj (b.idx_range hc) (b.idx_range hd) (show b.idx c + (p : ℤ) * b.size = b.idx d + (q : ℤ) * b.size by linarith)
  exact ⟨by exact_mod_cast this.1, b.idx_inj hc hd this.2⟩

theorem Box.mem_list (b : Box) (c : Cell) : c ∈ b.list ↔ b.Has c := by
  obtain ⟨x, y, z⟩ := c
  simp only [Box.list, List.mem_flatMap, List.mem_range, List.mem_map, Prod.mk.injEq, Box.Has, Box.n0, Box.n1, Box.n2]
  constructor
  · rintro ⟨k, hk, j, hj, i, hi, rfl, rfl, rfl⟩
    omega
  · rintro ⟨h1, h2, h3, h4, h5, h6⟩
    exact ⟨(z - b.lo2).toNat, by omega, (y - b.lo1).toNat, by omega, (x - b.lo0).toNat, by omega, by omega, by omega, by omega⟩

theorem Box.nodup_list (b : Box) : b.list.Nodup := by
  unfold Box.list
  rw [List.nodup_flatMap]
  constructor
  · intro k _
    rw [List.nodup_flatMap]
    constructor
    · intro j _
      refine List.Nodup.map ?_ List.nodup_range
      intro i i' h
      simp only [Prod.mk.injEq, add_right_inj, Nat.cast_inj, and_true] at h
      exact h
    · refine List.Pairwise.imp ?_ (List.nodup_range (n := b.n1.toNat))
      intro j j' hne
      rw [Function.onFun, List.disjoint_left]
      intro c hc hc'
      simp only [List.mem_map, List.mem_range] at hc hc'
      obtain ⟨i, _, rfl⟩ := hc
      obtain ⟨i', _, h⟩ := hc'
      simp only [Prod.mk.injEq, add_right_inj, Nat.cast_inj] at h
      exact hne h.2.1.symm
  · refine List.Pairwise.imp ?_ (List.nodup_range (n := b.n2.toNat))
    intro k k' hne
    rw [Function.onFun, List.disjoint_left]
    intro c hc hc'
    simp only [List.mem_map, List.mem_range, List.mem_flatMap] at hc hc'
    obtain ⟨j, _, i, _, rfl⟩ := hc
    obtain ⟨j', _, i', _, h⟩ := hc'
    simp only [Prod.mk.injEq, add_right_inj, Nat.cast_inj] at h
    exact hne h.2.2.symm

theorem Box.has_grow {b : Box} {three : Bool} {c : Cell} {w : ℤ} (h : 0 ≤ w) (hc : b.Has c) : (b.grow three w).Has c := by
  cases three <;> simp [Box.Has, Box.grow] at * <;> omega

/-- A loop that changes, at each step, one position as a function of what that position holds. -/
theorem fold_spec {α V : Type} (pos : α → ℤ) (f : V → α → V) :
    ∀ (L : List α), L.Nodup → (∀ c ∈ L, ∀ d ∈ L, pos c = pos d → c = d) → ∀ out : ℤ → V,
      (∀ c ∈ L, (L.foldl (fun o c => Function.update o (pos c) (f (o (pos c)) c)) out) (pos c) = f (out (pos c)) c) ∧
      (∀ p, (∀ c ∈ L, pos c ≠ p) → (L.foldl (fun o c => Function.update o (pos c) (f (o (pos c)) c)) out) p = out p)
  | [], _, _, out => ⟨fun c hc => by simp at hc, fun p _ => rfl⟩
  | d :: L, hn, hi, out => by
    have hn' := List.nodup_cons.mp hn
    have ih := fold_spec pos f L hn'.2 (fun c hc e he => hi c (List.mem_cons_of_mem _ hc) e (List.mem_cons_of_mem _ he))
      (Function.update out (pos d) (f (out (pos d)) d))
    have hne : ∀ c ∈ L, pos c ≠ pos d := fun c hc h =>
      hn'.1 ((hi c (List.mem_cons_of_mem _ hc) d List.mem_cons_self h) ▸ hc)
    refine ⟨?_, ?_⟩
    · intro c hc
      rw [List.foldl_cons]
      rcases List.mem_cons.mp hc with rfl | hc
      · rw [ih.2 (pos c) hne, Function.update_self]
      · rw [ih.1 c hc, Function.update_of_ne (hne c hc)]
    · intro p hp
      rw [List.foldl_cons, ih.2 p (fun c hc => hp c (List.mem_cons_of_mem _ hc)),
        Function.update_of_ne (fun h => hp d List.mem_cons_self h.symm)]

/-- Loop over the cells of `b`, plane 0 of an array with box `g ⊇ b`. -/
theorem cells_spec {V : Type} (b g : Box) (hg : ∀ c, b.Has c → g.Has c) (f : V → Cell → V) (out : ℤ → V) :
    (∀ c, b.Has c → (b.list.foldl (fun o c => Function.update o (g.plane 0 c) (f (o (g.plane 0 c)) c)) out) (g.plane 0 c)
      = f (out (g.plane 0 c)) c) ∧
    (∀ q, (∀ c, b.Has c → g.plane 0 c ≠ q) →
      (b.list.foldl (fun o c => Function.update o (g.plane 0 c) (f (o (g.plane 0 c)) c)) out) q = out q) := by
  have h := fold_spec (fun c => g.plane 0 c) f b.list b.nodup_list
    (fun c hc d hd e => (g.plane_inj (hg c ((b.mem_list c).mp hc)) (hg d ((b.mem_list d).mp hd)) e).2) out
  exact ⟨fun c hc => h.1 c ((b.mem_list c).mpr hc), fun q hq => h.2 q fun c hc => hq c ((b.mem_list c).mp hc)⟩

/-- Loop over the cells of `b` and the first `n` planes of an array with box `g ⊇ b`. -/
theorem planes_spec {V : Type} (n : ℕ) (b g : Box) (hg : ∀ c, b.Has c → g.Has c) (f : V → Cell → Fin n → V) (out : ℤ → V) :
    (∀ c, b.Has c → ∀ p : Fin n, (b.list.foldl (fun o c => (List.finRange n).foldl (fun o (p : Fin n) =>
        Function.update o (g.plane p c) (f (o (g.plane p c)) c p)) o) out) (g.plane p c) = f (out (g.plane p c)) c p) ∧
    (∀ q, (∀ c, b.Has c → ∀ p : Fin n, g.plane p c ≠ q) → (b.list.foldl (fun o c => (List.finRange n).foldl (fun o (p : Fin n) =>
        Function.update o (g.plane p c) (f (o (g.plane p c)) c p)) o) out) q = out q) := by
  have e : ∀ (L : List Cell) (o : ℤ → V), L.foldl (fun o c => (List.finRange n).foldl (fun o (p : Fin n) =>
        Function.update o (g.plane p c) (f (o (g.plane p c)) c p)) o) o
      = (L.flatMap fun c => (List.finRange n).map fun p => (c, p)).foldl
          (fun o (a : Cell × Fin n) => Function.update o (g.plane a.2 a.1) (f (o (g.plane a.2 a.1)) a.1 a.2)) o := by
    intro L o
    induction L generalizing o with
    | nil => rfl
    | cons c L ih =>
      rw [List.foldl_cons, ih, List.flatMap_cons, List.foldl_append, List.foldl_map]
  have hm : ∀ a : Cell × Fin n, a ∈ (b.list.flatMap fun c => (List.finRange n).map fun p => (c, p)) ↔ b.Has a.1 := by
    rintro ⟨c, p⟩
    simp only [List.mem_flatMap, List.mem_map, List.mem_finRange, true_and, Prod.mk.injEq]
    constructor
    · rintro ⟨d, hd, q, rfl, _⟩
      exact (b.mem_list d).mp hd
    · intro hc
      exact ⟨c, (b.mem_list c).mpr hc, p, rfl, rfl⟩
  have hnd : (b.list.flatMap fun c => (List.finRange n).map fun p => (c, p)).Nodup := by
    rw [List.nodup_flatMap]
    constructor
    · intro c _
      refine List.Nodup.map ?_ (List.nodup_finRange n)
      intro p q h
      simpa using h
    · refine List.Pairwise.imp ?_ b.nodup_list
      intro c d hne
      rw [Function.onFun, List.disjoint_left]
      intro a ha ha'
      simp only [List.mem_map] at ha ha'
      obtain ⟨p, _, rfl⟩ := ha
      obtain ⟨q, _, h⟩ := ha'
      exact hne (Prod.mk.inj h).1.symm
  have h := fold_spec (fun a : Cell × Fin n => g.plane a.2 a.1) (fun v a => f v a.1 a.2) _ hnd
    (fun a ha a' ha' ee => by
      have := g.plane_inj (hg _ ((hm a).mp ha)) (hg _ ((hm a').mp ha')) ee
      exact Prod.ext this.2 (Fin.ext this.1)) out
  refine ⟨fun c hc p => ?_, fun q hq => ?_⟩
  · rw [e]
    exact h.1 (c, p) ((hm _).mpr hc)
  · rw [e]
    exact h.2 q fun a ha => hq a.1 ((hm a).mp ha) a.2

end AMPE.DrivingForce
