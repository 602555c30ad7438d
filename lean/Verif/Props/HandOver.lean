import Verif.Model.HandOver
import Verif.Props.LevelSolve3

/-! # C122: samples one cell thick are solved -/

namespace AMPE.HandOver.Props

open AMPE.HandOver
open AMPE.QuatFlow3 (Cell mv)
open AMPE.LevelSolve3 (Off pairTerm)

/-! ## Specification -/

/-- The level: every cell of the level is in a patch and vice versa; no patch is empty; in the 2D program the third index is
0. -/
structure Level (ndim : ℕ) (ps : List Patch) (cells : Finset Cell) : Prop where
  cells : ∀ c, c ∈ cells ↔ ∃ p ∈ ps, p.has c
  nonempty : ∀ p ∈ ps, ∀ d, coord d p.lo ≤ coord d p.hi
  some : ps ≠ []
  flat : ndim = 2 → ∀ p ∈ ps, p.lo.2.2 = 0 ∧ p.hi.2.2 = 0

/-- The equation of a cell: diagonal entry and the neighbours on the level, in all directions of the program. -/
noncomputable def levelRow (ndim : ℕ) (cells : Finset Cell) (off : Off) (diag u : Cell → ℝ) (c : Cell) : ℝ :=
  diag c * u c + ∑ d : Fin 3, if d.1 < ndim then pairTerm cells (off d) d u c else 0

/-! ## The copy loop -/

/-- Entries of a cell in the order written. -/
def want (ndim D : ℕ) (off : Off) (diag : Cell → ℝ) (c : Cell) : List ℝ :=
  off 0 c :: ((if D > 1 then [off 1 c] else []) ++ ((if ndim > 2 then [off 2 c] else []) ++ [diag c]))

def width (ndim D : ℕ) : ℕ := 2 + (if D > 1 then 1 else 0) + (if ndim > 2 then 1 else 0)

theorem want_length (ndim D : ℕ) (off : Off) (diag : Cell → ℝ) (c : Cell) : (want ndim D off diag c).length = width ndim D := by
  unfold want width
  split_ifs <;> rfl

/-- One cell: its entries are written, the rest of the memory stays. -/
theorem cellStep_spec (ndim D : ℕ) (p : Patch) (off : Off) (diag : Cell → ℝ) (s : St) (c : Cell)
    (hx : p.xface s.ox = c) (hy : D > 1 → p.yface s.oy = c) (hz : ndim > 2 → p.cell s.oz = c) (hd : p.cell s.count = c) :
    let s' := cellStep ndim D p off diag s
    s'.offset = s.offset + width ndim D ∧ s'.ox = s.ox + 1 ∧ (D > 1 → s'.oy = s.oy + 1) ∧ (ndim > 2 → s'.oz = s.oz + 1) ∧
    s'.count = s.count + 1 ∧ (∀ a < s.offset, s'.mem a = s.mem a) ∧
    ∀ k < width ndim D, s'.mem (s.offset + k) = (want ndim D off diag c).getD k 0 := by
  by_cases h1 : D > 1 <;> by_cases h2 : ndim > 2
  · have e : width ndim D = 4 := by simp [width, h1, h2]
    rw [e]
    simp only [cellStep, if_pos h1, if_pos h2, St.put, want, hx, hy h1, hz h2, hd, forall_const]
    refine ⟨trivial, trivial, fun _ => trivial, fun _ => trivial, trivial, ?_, ?_⟩
    · intro a ha
      rw [Function.update_of_ne (by omega), Function.update_of_ne (by omega), Function.update_of_ne (by omega),
        Function.update_of_ne (by omega)]
    · intro k hk
      interval_cases k
      · rw [Function.update_of_ne (by omega), Function.update_of_ne (by omega), Function.update_of_ne (by omega)]; simp
      · rw [Function.update_of_ne (by omega), Function.update_of_ne (by omega)]; simp
      · rw [Function.update_of_ne (by omega)]; simp
      · simp
  · have e : width ndim D = 3 := by simp [width, h1, h2]
    rw [e]
    simp only [cellStep, if_pos h1, if_neg h2, St.put, want, hx, hy h1, hd]
    refine ⟨trivial, trivial, fun _ => trivial, fun h => absurd h h2, trivial, ?_, ?_⟩
    · intro a ha
      rw [Function.update_of_ne (by omega), Function.update_of_ne (by omega), Function.update_of_ne (by omega)]
    · intro k hk
      interval_cases k
      · rw [Function.update_of_ne (by omega), Function.update_of_ne (by omega)]; simp
      · rw [Function.update_of_ne (by omega)]; simp
      · simp
  · have e : width ndim D = 3 := by simp [width, h1, h2]
    rw [e]
    simp only [cellStep, if_neg h1, if_pos h2, St.put, want, hx, hz h2, hd]
    refine ⟨trivial, trivial, fun h => absurd h h1, fun _ => trivial, trivial, ?_, ?_⟩
    · intro a ha
      rw [Function.update_of_ne (by omega), Function.update_of_ne (by omega), Function.update_of_ne (by omega)]
    · intro k hk
      interval_cases k
      · rw [Function.update_of_ne (by omega), Function.update_of_ne (by omega)]; simp
      · rw [Function.update_of_ne (by omega)]; simp
      · simp
  · have e : width ndim D = 2 := by simp [width, h1, h2]
    rw [e]
    simp only [cellStep, if_neg h1, if_neg h2, St.put, want, hx, hd]
    refine ⟨trivial, trivial, fun h => absurd h h1, fun h => absurd h h2, trivial, ?_, ?_⟩
    · intro a ha
      rw [Function.update_of_ne (by omega), Function.update_of_ne (by omega)]
    · intro k hk
      interval_cases k
      · rw [Function.update_of_ne (by omega)]; simp
      · simp

/-- State of the loop before cell `(i, j, k)`: counters and the part of the buffer that is complete. -/
structure Inv (ndim D : ℕ) (p : Patch) (off : Off) (diag : Cell → ℝ) (i j k : ℕ) (s : St) : Prop where
  ox : s.ox = i + (p.n 0 + 1) * (j + p.n 1 * k)
  oy : D > 1 → s.oy = i + p.n 0 * (j + (p.n 1 + 1) * k)
  oz : ndim > 2 → s.oz = i + p.n 0 * (j + p.n 1 * k)
  count : s.count = i + p.n 0 * (j + p.n 1 * k)
  offset : s.offset = width ndim D * s.count
  mem : ∀ l < s.count, ∀ e < width ndim D, s.mem (width ndim D * l + e) = (want ndim D off diag (p.cell l)).getD e 0

theorem split3 (n m i j k : ℕ) (hi : i < n) (hj : j < m) :
    (i + n * (j + m * k)) % n = i ∧ (i + n * (j + m * k)) / n % m = j ∧ (i + n * (j + m * k)) / n / m = k := by
  have h1 : (i + n * (j + m * k)) / n = j + m * k := by
    rw [Nat.add_mul_div_left _ _ (by omega), Nat.div_eq_of_lt hi, Nat.zero_add]
  refine ⟨by rw [Nat.add_mul_mod_self_left, Nat.mod_eq_of_lt hi], ?_, ?_⟩
  · rw [h1, Nat.add_mul_mod_self_left, Nat.mod_eq_of_lt hj]
  · rw [h1, Nat.add_mul_div_left _ _ (by omega), Nat.div_eq_of_lt hj, Nat.zero_add]

theorem cell_at (p : Patch) (i j k : ℕ) (hi : i < p.n 0) (hj : j < p.n 1) :
    p.cell (i + p.n 0 * (j + p.n 1 * k)) = (p.lo.1 + (i : ℤ), p.lo.2.1 + (j : ℤ), p.lo.2.2 + (k : ℤ)) := by
  obtain ⟨h1, h2, h3⟩ := split3 (p.n 0) (p.n 1) i j k hi hj
  simp only [Patch.cell, h1, h2, h3]

theorem xface_at (p : Patch) (i j k : ℕ) (hi : i < p.n 0) (hj : j < p.n 1) :
    p.xface (i + (p.n 0 + 1) * (j + p.n 1 * k)) = (p.lo.1 + (i : ℤ), p.lo.2.1 + (j : ℤ), p.lo.2.2 + (k : ℤ)) := by
  obtain ⟨h1, h2, h3⟩ := split3 (p.n 0 + 1) (p.n 1) i j k (by omega) hj
  simp only [Patch.xface, h1, h2, h3]

theorem yface_at (p : Patch) (i j k : ℕ) (hi : i < p.n 0) (hj : j < p.n 1) :
    p.yface (i + p.n 0 * (j + (p.n 1 + 1) * k)) = (p.lo.1 + (i : ℤ), p.lo.2.1 + (j : ℤ), p.lo.2.2 + (k : ℤ)) := by
  obtain ⟨h1, h2, h3⟩ := split3 (p.n 0) (p.n 1 + 1) i j k hi (by omega)
  simp only [Patch.yface, h1, h2, h3]

theorem inv_cell {ndim D : ℕ} {p : Patch} {off : Off} {diag : Cell → ℝ} {i j k : ℕ} {s : St} (hi : i < p.n 0) (hj : j < p.n 1)
    (H : Inv ndim D p off diag i j k s) : Inv ndim D p off diag (i + 1) j k (cellStep ndim D p off diag s) := by
  have hc : p.cell s.count = (p.lo.1 + (i : ℤ), p.lo.2.1 + (j : ℤ), p.lo.2.2 + (k : ℤ)) := by rw [H.count, cell_at p i j k hi hj]
  obtain ⟨S1, S2, S3, S4, S5, S6, S7⟩ := cellStep_spec ndim D p off diag s (p.cell s.count)
    (by rw [hc, H.ox, xface_at p i j k hi hj]) (fun h => by rw [hc, H.oy h, yface_at p i j k hi hj])
    (fun h => by rw [hc, H.oz h, cell_at p i j k hi hj]) rfl
  constructor
  · rw [S2, H.ox]; ring
  · intro h; rw [S3 h, H.oy h]; ring
  · intro h; rw [S4 h, H.oz h]; ring
  · rw [S5, H.count]; ring
  · rw [S1, S5, H.offset]; ring
  · intro l hl e he
    rw [S5] at hl
    rcases Nat.lt_succ_iff_lt_or_eq.mp hl with h | rfl
    · rw [S6, H.mem l h e he]
      rw [H.offset]
      have h1 : width ndim D * (l + 1) ≤ width ndim D * s.count := Nat.mul_le_mul_left _ h
      rw [Nat.mul_add, Nat.mul_one] at h1
      omega
    · rw [← H.offset]
      exact S7 e he

theorem inv_cells {ndim D : ℕ} {p : Patch} {off : Off} {diag : Cell → ℝ} {j k : ℕ} {s : St} (hj : j < p.n 1)
    (H : Inv ndim D p off diag 0 j k s) : ∀ i ≤ p.n 0, Inv ndim D p off diag i j k ((cellStep ndim D p off diag)^[i] s) := by
  intro i
  induction i with
  | zero => intro _; exact H
  | succ i ih =>
    intro hi
    rw [Function.iterate_succ_apply']
    exact inv_cell (by omega) hj (ih (by omega))

theorem inv_row {ndim D : ℕ} {p : Patch} {off : Off} {diag : Cell → ℝ} {j k : ℕ} {s : St} (hj : j < p.n 1)
    (H : Inv ndim D p off diag 0 j k s) : Inv ndim D p off diag 0 (j + 1) k (rowStep ndim D p off diag s) := by
  have h := inv_cells hj H (p.n 0) le_rfl
  unfold rowStep
  constructor
  · change _ + 1 = _
    rw [h.ox]; ring
  · intro hD; exact (h.oy hD).trans (by ring)
  · intro hD; exact (h.oz hD).trans (by ring)
  · exact h.count.trans (by ring)
  · exact h.offset
  · exact h.mem

theorem inv_rows {ndim D : ℕ} {p : Patch} {off : Off} {diag : Cell → ℝ} {k : ℕ} {s : St}
    (H : Inv ndim D p off diag 0 0 k s) : ∀ j ≤ p.n 1, Inv ndim D p off diag 0 j k ((rowStep ndim D p off diag)^[j] s) := by
  intro j
  induction j with
  | zero => intro _; exact H
  | succ j ih =>
    intro hj
    rw [Function.iterate_succ_apply']
    exact inv_row (by omega) (ih (by omega))

theorem inv_start (ndim D : ℕ) (p : Patch) (off : Off) (diag : Cell → ℝ) (mem0 : ℕ → ℝ) :
    Inv ndim D p off diag 0 0 0 ⟨mem0, 0, 0, 0, 0, 0⟩ := by
  constructor <;> simp

/-- Planes of a 3D patch. -/
theorem inv_planes {ndim D : ℕ} {p : Patch} {off : Off} {diag : Cell → ℝ} (h3 : ndim > 2) (mem0 : ℕ → ℝ) (k : ℕ) :
    Inv ndim D p off diag 0 0 k ((planeStep ndim D p off diag)^[k] ⟨mem0, 0, 0, 0, 0, 0⟩) := by
  induction k with
  | zero => exact inv_start ndim D p off diag mem0
  | succ k ih =>
    rw [Function.iterate_succ_apply']
    generalize (planeStep ndim D p off diag)^[k] ⟨mem0, 0, 0, 0, 0, 0⟩ = t at ih ⊢
    have h := inv_rows ih (p.n 1) le_rfl
    unfold planeStep
    rw [if_pos h3]
    constructor
    · exact h.ox.trans (by ring)
    · intro hD
      change _ + _ = _
      rw [h.oy hD]; ring
    · intro hD; exact (h.oz hD).trans (by ring)
    · exact h.count.trans (by ring)
    · exact h.offset
    · exact h.mem

/-- **The buffer** after the copy loop: length and contents. -/
theorem copy_spec (ndim D : ℕ) (p : Patch) (off : Off) (diag : Cell → ℝ) (mem0 : ℕ → ℝ) (h : ndim > 2 ∨ p.n 2 = 1) :
    let s := copyLoop ndim D p off diag mem0
    s.offset = width ndim D * p.size ∧
    ∀ l < p.size, ∀ e < width ndim D, s.mem (width ndim D * l + e) = (want ndim D off diag (p.cell l)).getD e 0 := by
  by_cases h3 : ndim > 2
  · have H := inv_planes (D := D) (p := p) (off := off) (diag := diag) h3 mem0 (p.n 2)
    have hc := H.count
    have hs : p.size = 0 + p.n 0 * (0 + p.n 1 * p.n 2) := by unfold Patch.size; ring
    rw [hs, ← hc]
    exact ⟨H.offset, H.mem⟩
  · have h1 : p.n 2 = 1 := h.resolve_left h3
    have H := inv_rows (inv_start ndim D p off diag mem0) (p.n 1) le_rfl
    have hc := H.count
    have hs : p.size = 0 + p.n 0 * (p.n 1 + p.n 1 * 0) := by unfold Patch.size; rw [h1]; ring
    simp only [copyLoop, h1, Function.iterate_one, planeStep, if_neg h3]
    rw [hs, ← hc]
    exact ⟨H.offset, H.mem⟩

/-! ## hypre's grid -/

/-- The cell of the level behind a grid cell; `y0` is the row of a bar. -/
def lift (D : ℕ) (y0 : ℤ) (g : Cell) : Cell := (g.1, if 2 ≤ D then g.2.1 else y0, if 3 ≤ D then g.2.2 else 0)

/-- A patch of a level whose directions beyond the first `D` are one cell thick. -/
structure Thin (D : ℕ) (y0 : ℤ) (p : Patch) : Prop where
  nonempty : ∀ d, coord d p.lo ≤ coord d p.hi
  z : D < 3 → p.lo.2.2 = 0 ∧ p.hi.2.2 = 0
  y : D < 2 → p.lo.2.1 = y0 ∧ p.hi.2.1 = y0

theorem pos_lt (n m l i j k : ℕ) (hi : i < n) (hj : j < m) (hk : k < l) : i + n * (j + m * k) < n * m * l := by
  have h1 : j + m * k + 1 ≤ m * l := by nlinarith
  have h2 : n * (j + m * k + 1) ≤ n * (m * l) := Nat.mul_le_mul_left n h1
  have h3 : n * (j + m * k + 1) = n * (j + m * k) + n := by ring
  rw [mul_assoc]
  omega

theorem grid_cell {D : ℕ} {y0 : ℤ} {p : Patch} (hD : 1 ≤ D) (H : Thin D y0 p) (g : Cell) (hg : inGrid D p g) :
    p.cell (gridPos D p g) = lift D y0 g ∧ p.has (lift D y0 g) ∧ gridPos D p g < p.size := by
  obtain ⟨hg1, hg2⟩ := hg
  have e0 := H.nonempty 0
  have e1 := H.nonempty 1
  have e2 := H.nonempty 2
  have n0 : (p.n 0 : ℤ) = p.hi.1 - p.lo.1 + 1 := by simp only [Patch.n, coord] at e0 ⊢; omega
  have n1 : (p.n 1 : ℤ) = p.hi.2.1 - p.lo.2.1 + 1 := by simp only [Patch.n, coord] at e1 ⊢; omega
  have n2 : (p.n 2 : ℤ) = p.hi.2.2 - p.lo.2.2 + 1 := by simp only [Patch.n, coord] at e2 ⊢; omega
  have gx := hg2 0 hD
  simp only [coord] at e0 e1 e2 gx
  have hi : (g.1 - p.lo.1).toNat < p.n 0 := by omega
  have hi' : ((g.1 - p.lo.1).toNat : ℤ) = g.1 - p.lo.1 := by omega
  obtain ⟨j, ej, hj, hj', yr⟩ : ∃ j : ℕ, (if 2 ≤ D then (g.2.1 - p.lo.2.1).toNat else 0) = j ∧ j < p.n 1 ∧
      p.lo.2.1 + (j : ℤ) = (if 2 ≤ D then g.2.1 else y0) ∧
      (p.lo.2.1 ≤ (if 2 ≤ D then g.2.1 else y0) ∧ (if 2 ≤ D then g.2.1 else y0) ≤ p.hi.2.1) := by
    by_cases h : 2 ≤ D
    · have gy := hg2 1 h
      simp only [coord] at gy
      refine ⟨_, rfl, ?_, ?_, ?_⟩ <;> simp only [if_pos h] <;> omega
    · have gy := H.y (by omega)
      refine ⟨_, rfl, ?_, ?_, ?_⟩ <;> simp only [if_neg h] <;> omega
  obtain ⟨k, ek, hk, hk', zr⟩ : ∃ k : ℕ, (if 3 ≤ D then (g.2.2 - p.lo.2.2).toNat else 0) = k ∧ k < p.n 2 ∧
      p.lo.2.2 + (k : ℤ) = (if 3 ≤ D then g.2.2 else 0) ∧
      (p.lo.2.2 ≤ (if 3 ≤ D then g.2.2 else 0) ∧ (if 3 ≤ D then g.2.2 else 0) ≤ p.hi.2.2) := by
    by_cases h : 3 ≤ D
    · have gz := hg2 2 h
      simp only [coord] at gz
      refine ⟨_, rfl, ?_, ?_, ?_⟩ <;> simp only [if_pos h] <;> omega
    · have gz := H.z (by omega)
      refine ⟨_, rfl, ?_, ?_, ?_⟩ <;> simp only [if_neg h] <;> omega
  unfold gridPos
  rw [ej, ek]
  refine ⟨?_, ?_, ?_⟩
  · rw [cell_at p _ j k hi hj, hi', hj', hk']
    simp only [lift, add_sub_cancel]
  · intro d
    fin_cases d <;> simp only [lift, coord]
    · exact gx
    · exact yr
    · exact zr
  · exact pos_lt _ _ _ _ _ _ hi hj hk

theorem grid_of {D : ℕ} {y0 : ℤ} {p : Patch} (hD : 1 ≤ D) (H : Thin D y0 p) (c : Cell) (hc : p.has c) :
    inGrid D p (gridCell D c) ∧ lift D y0 (gridCell D c) = c := by
  have h0 := hc 0
  have h1 := hc 1
  have h2 := hc 2
  simp only [coord] at h0 h1 h2
  refine ⟨⟨?_, ?_⟩, ?_⟩
  · simp only [gridCell]
    split_ifs <;> rfl
  · intro d hd
    fin_cases d <;> simp only [gridCell, coord] at hd ⊢
    · rw [if_pos hD]; exact h0
    · rw [if_pos (show 2 ≤ D from hd)]; exact h1
    · rw [if_pos (show 3 ≤ D from hd)]; exact h2
  · have hy : (if 2 ≤ D then (if 2 ≤ D then c.2.1 else 0) else y0) = c.2.1 := by
      by_cases h : 2 ≤ D
      · rw [if_pos h, if_pos h]
      · have := H.y (by omega)
        rw [if_neg h]; omega
    have hz : (if 3 ≤ D then (if 3 ≤ D then c.2.2 else 0) else 0) = c.2.2 := by
      by_cases h : 3 ≤ D
      · rw [if_pos h, if_pos h]
      · have := H.z (by omega)
        rw [if_neg h]; omega
    simp only [lift, gridCell, if_pos hD, hy, hz]

theorem setBoxes_eq (D : ℕ) (v : Patch → ℕ → ℝ) (g : Cell) (w : ℝ) : ∀ (ps : List Patch) (x : ℝ),
    (∀ p ∈ ps, inGrid D p g → v p (gridPos D p g) = w) → ((∃ p ∈ ps, inGrid D p g) ∨ x = w) →
    (open Classical in ps.foldl (fun x p => if inGrid D p g then v p (gridPos D p g) else x) x) = w := by
  intro ps
  induction ps with
  | nil =>
    intro x _ h
    rcases h with ⟨_, h, _⟩ | h
    · cases h
    · exact h
  | cons p ps ih =>
    intro x hv h
    rw [List.foldl_cons]
    refine ih _ (fun q hq => hv q (List.mem_cons_of_mem _ hq)) ?_
    by_cases hp : inGrid D p g
    · right
      rw [if_pos hp]
      exact hv p List.mem_cons_self hp
    · rw [if_neg hp]
      rcases h with ⟨q, hq, hg⟩ | h
      · rcases List.mem_cons.mp hq with rfl | hq
        · exact absurd hg hp
        · exact Or.inl ⟨q, hq, hg⟩
      · exact Or.inr h

theorem lift_mv (D : ℕ) (y0 : ℤ) (d : Fin 3) (hd : d.1 < D) (a : ℤ) (g : Cell) : lift D y0 (mv d a g) = mv d a (lift D y0 g) := by
  fin_cases d <;> simp only [lift, mv] at hd ⊢
  · rw [if_pos (show 2 ≤ D from hd), if_pos (show 2 ≤ D from hd)]
  · rw [if_pos (show 3 ≤ D from hd), if_pos (show 3 ≤ D from hd)]

theorem gridCell_mv (D : ℕ) (d : Fin 3) (hd : d.1 < D) (a : ℤ) (g : Cell) : gridCell D (mv d a g) = mv d a (gridCell D g) := by
  fin_cases d <;> simp only [gridCell, mv] at hd ⊢
  · rw [if_pos (show 1 ≤ D from hd), if_pos (show 1 ≤ D from hd)]
  · rw [if_pos (show 2 ≤ D from hd), if_pos (show 2 ≤ D from hd)]
  · rw [if_pos (show 3 ≤ D from hd), if_pos (show 3 ≤ D from hd)]

theorem width_ok (ndim D : ℕ) (hw : (ndim = 3 ∧ D = 3) ∨ (ndim = 2 ∧ (D = 1 ∨ D = 2))) : width ndim D = stencilSize D := by
  rcases hw with ⟨rfl, rfl⟩ | ⟨rfl, rfl | rfl⟩ <;> rfl

/-- Entries found by hypre, if the buffer has the right width. -/
theorem matrix_spec {ndim D : ℕ} {y0 : ℤ} {ps : List Patch} (off : Off) (diag : Cell → ℝ) (mem0 : ℕ → ℝ)
    (hw : (ndim = 3 ∧ D = 3) ∨ (ndim = 2 ∧ (D = 1 ∨ D = 2))) (H : ∀ p ∈ ps, Thin D y0 p) (g : Cell) (hg : ∃ p ∈ ps, inGrid D p g) :
    matrix ndim D ps off diag mem0 D g = diag (lift D y0 g) ∧
    ∀ d : Fin 3, d.1 < D → matrix ndim D ps off diag mem0 d.1 g = off d (lift D y0 g) := by
  have hD : 1 ≤ D := by omega
  have key : ∀ e < width ndim D, matrix ndim D ps off diag mem0 e g = (want ndim D off diag (lift D y0 g)).getD e 0 := by
    intro e he
    unfold matrix setBoxes
    refine setBoxes_eq D (fun p l => (copyLoop ndim D p off diag mem0).mem (stencilSize D * l + e)) g _ ps 0 ?_ (Or.inl hg)
    intro p hp hpg
    obtain ⟨h1, -, h3⟩ := grid_cell hD (H p hp) g hpg
    have hn : ndim > 2 ∨ p.n 2 = 1 := by
      rcases hw with h | h
      · left; omega
      · right
        have hz := (H p hp).z (by omega)
        simp [Patch.n, coord, hz]
    rw [← width_ok ndim D hw, (copy_spec ndim D p off diag mem0 hn).2 _ h3 e he, h1]
  rcases hw with ⟨rfl, rfl⟩ | ⟨rfl, rfl | rfl⟩
  · refine ⟨key 3 (by decide), ?_⟩
    intro d hd
    rw [key d.1 (by have : width 3 3 = 4 := rfl; omega)]
    fin_cases d <;> rfl
  · refine ⟨key 1 (by decide), ?_⟩
    intro d hd
    rw [key d.1 (by have : width 2 1 = 2 := rfl; omega)]
    fin_cases d <;> first | rfl | (simp at hd)
  · refine ⟨key 2 (by decide), ?_⟩
    intro d hd
    rw [key d.1 (by have : width 2 2 = 3 := rfl; omega)]
    fin_cases d <;> first | rfl | (simp at hd)

theorem rhs_spec {D : ℕ} {y0 : ℤ} {ps : List Patch} (hD : 1 ≤ D) (H : ∀ p ∈ ps, Thin D y0 p) (f : Cell → ℝ) (g : Cell)
    (hg : ∃ p ∈ ps, inGrid D p g) : rhsGrid D ps f g = f (lift D y0 g) := by
  unfold rhsGrid setBoxes
  refine setBoxes_eq D (fun p l => f (p.cell l)) g _ ps 0 ?_ (Or.inl hg)
  intro p hp hpg
  rw [(grid_cell hD (H p hp) g hpg).1]

/-- No overflow, and hypre's equations are those of the level. -/
theorem solve_thin {ndim D : ℕ} {y0 : ℤ} {ps : List Patch} {cells : Finset Cell} (off : Off) (diag f : Cell → ℝ)
    (hcells : ∀ c, c ∈ cells ↔ ∃ p ∈ ps, p.has c)
    (hw : (ndim = 3 ∧ D = 3) ∨ (ndim = 2 ∧ (D = 1 ∨ D = 2))) (H : ∀ p ∈ ps, Thin D y0 p) (hdim : actualDim ndim ps = D) (o : Outcome) :
    Solve ndim ps off diag f o ↔ ∃ u, o = .result u ∧ ∀ c ∈ cells, levelRow ndim cells off diag u c = f c := by
  have hD : 1 ≤ D := by omega
  have gc : ∀ c ∈ cells, (∃ p ∈ ps, inGrid D p (gridCell D c)) ∧ lift D y0 (gridCell D c) = c := by
    intro c hc
    obtain ⟨p, hp, h⟩ := (hcells c).mp hc
    have := grid_of hD (H p hp) c h
    exact ⟨⟨p, hp, this.1⟩, this.2⟩
  have cg : ∀ g, (∃ p ∈ ps, inGrid D p g) → lift D y0 g ∈ cells ∧ gridCell D (lift D y0 g) = g := by
    rintro g ⟨p, hp, h⟩
    refine ⟨(hcells _).mpr ⟨p, hp, (grid_cell hD (H p hp) g h).2.1⟩, ?_⟩
    have e := h.1
    simp only [gridCell, if_pos hD, lift] at e ⊢
    rw [← e]
    dsimp only
    split_ifs <;> rfl
  have nov : ¬ ∃ p ∈ ps, ∃ mem0, stencilSize D * p.size < (copyLoop ndim D p off diag mem0).offset := by
    rintro ⟨p, hp, mem0, h⟩
    have hn : ndim > 2 ∨ p.n 2 = 1 := by
      rcases hw with h | h
      · left; omega
      · right
        have hz := (H p hp).z (by omega)
        simp [Patch.n, coord, hz]
    rw [(copy_spec ndim D p off diag mem0 hn).1, width_ok ndim D hw] at h
    exact lt_irrefl _ h
  -- a row of hypre's matrix, for a grid with the right members
  have rowEq : ∀ (grid : Finset Cell) (x u : Cell → ℝ) (mem0 : ℕ → ℝ), (∀ g, g ∈ grid ↔ ∃ p ∈ ps, inGrid D p g) →
      (∀ g ∈ grid, u (lift D y0 g) = x g) → ∀ g ∈ grid,
      hypreRow D grid (matrix ndim D ps off diag mem0) x g = levelRow ndim cells off diag u (lift D y0 g) := by
    intro grid x u mem0 hgrid hx g hg
    have hg' := (hgrid g).mp hg
    obtain ⟨m1, m2⟩ := matrix_spec off diag mem0 hw H g hg'
    have hmem : ∀ (d : Fin 3), d.1 < D → ∀ a, mv d a g ∈ grid ↔ mv d a (lift D y0 g) ∈ cells := by
      intro d hd a
      constructor
      · intro h
        rw [← lift_mv D y0 d hd]
        exact (cg _ ((hgrid _).mp h)).1
      · intro h
        have h1 := (gc _ h).1
        rw [gridCell_mv D d hd, (cg g hg').2] at h1
        exact (hgrid _).mpr h1
    unfold hypreRow levelRow
    rw [m1, hx g hg]
    congr 1
    refine Finset.sum_congr rfl fun d _ => ?_
    by_cases hd : d.1 < D
    · have hdn : d.1 < ndim := by omega
      rw [if_pos hd, if_pos hdn]
      unfold pairTerm
      have t : ∀ a, mv d a g ∈ grid → u (mv d a (lift D y0 g)) = x (mv d a g) ∧
          matrix ndim D ps off diag mem0 d.1 (mv d a g) = off d (mv d a (lift D y0 g)) := by
        intro a h
        rw [← lift_mv D y0 d hd]
        exact ⟨hx _ h, (matrix_spec off diag mem0 hw H _ ((hgrid _).mp h)).2 d hd⟩
      congr 1
      · by_cases h : mv d (-1) g ∈ grid
        · rw [if_pos h, if_pos ((hmem d hd _).mp h), (t _ h).1, m2 d hd]
        · rw [if_neg h, if_neg (fun h' => h ((hmem d hd _).mpr h'))]
      · by_cases h : mv d 1 g ∈ grid
        · rw [if_pos h, if_pos ((hmem d hd _).mp h), (t _ h).1, (t _ h).2]
        · rw [if_neg h, if_neg (fun h' => h ((hmem d hd _).mpr h'))]
    · rw [if_neg hd]
      by_cases hdn : d.1 < ndim
      · -- one cell thick in direction `d`: no neighbours
        rw [if_pos hdn]
        have hd1 : d = 1 ∧ D = 1 ∧ ndim = 2 := by
          rcases hw with h | h
          · omega
          · fin_cases d <;> simp at hd hdn ⊢ <;> omega
        obtain ⟨rfl, hD1, -⟩ := hd1
        have none : ∀ a, a ≠ 0 → mv 1 a (lift D y0 g) ∉ cells := by
          intro a ha h
          obtain ⟨p, hp, h1⟩ := (hcells _).mp h
          have h2 := h1 1
          have h3 := (H p hp).y (by omega)
          have h4 : ¬ 2 ≤ D := by omega
          simp only [coord, lift, mv, if_neg h4] at h2
          omega
        unfold pairTerm
        rw [if_neg (none _ (by norm_num)), if_neg (none _ (by norm_num)), add_zero]
      · rw [if_neg hdn]
  unfold Solve
  rw [hdim]
  unfold SolveWith
  rw [if_neg (by omega), if_neg nov]
  constructor
  · rintro ⟨grid, x, mem0, u, hgrid, hsol, hback, rfl⟩
    refine ⟨u, rfl, ?_⟩
    have hx : ∀ g ∈ grid, u (lift D y0 g) = x g := by
      intro g hg
      obtain ⟨p, hp, h⟩ := (hgrid g).mp hg
      rw [← (grid_cell hD (H p hp) g h).1]
      exact hback p hp g h
    intro c hc
    obtain ⟨h1, h2⟩ := gc c hc
    have hg := (hgrid _).mpr h1
    rw [← h2, ← rowEq grid x u mem0 hgrid hx _ hg, hsol _ hg, rhs_spec hD H f _ h1]
  · rintro ⟨u, rfl, hu⟩
    have hgrid : ∀ g, g ∈ cells.image (gridCell D) ↔ ∃ p ∈ ps, inGrid D p g := by
      intro g
      rw [Finset.mem_image]
      constructor
      · rintro ⟨c, hc, rfl⟩
        exact (gc c hc).1
      · intro h
        exact ⟨lift D y0 g, (cg g h).1, (cg g h).2⟩
    refine ⟨cells.image (gridCell D), fun g => u (lift D y0 g), fun _ => 0, u, hgrid, ?_, ?_, rfl⟩
    · intro g hg
      have hg' := (hgrid g).mp hg
      rw [rowEq _ _ u _ hgrid (fun _ _ => rfl) g hg, hu _ (cg g hg').1, rhs_spec hD H f g hg']
    · intro p hp g hg
      rw [(grid_cell hD (H p hp) g hg).1]

/-! ## Theorems -/

theorem extended_iff (ps : List Patch) (d : Fin 3) : extended ps d = true ↔ ∃ p ∈ ps, ∃ q ∈ ps, coord d q.lo < coord d p.hi := by
  simp [extended]

theorem actualDim_eq (ndim : ℕ) (ps : List Patch) : actualDim ndim ps =
    (if 0 < ndim && extended ps 0 then 1 else 0) + (if 1 < ndim && extended ps 1 then 1 else 0)
      + (if 2 < ndim && extended ps 2 then 1 else 0) := by
  have : List.finRange 3 = [0, 1, 2] := rfl
  unfold actualDim
  rw [this]
  simp only [List.filter_cons, List.filter_nil, Fin.val_zero, Fin.val_one, Fin.val_two]
  split_ifs <;> rfl

/-- **C122** (partial): 3D levels with more than one cell in every direction and 2D levels with more than one column, also
bars of one row.  The solve ends with a result, and the possible results are exactly the solutions of the equations of the
level; for every division into patches.  Missing: 3D levels one cell thick, and 2D levels of one column, see below. -/
theorem c122_exact_partial {ndim : ℕ} {ps : List Patch} {cells : Finset Cell} (L : Level ndim ps cells)
    (h : (ndim = 3 ∧ ∀ d, extended ps d = true) ∨ (ndim = 2 ∧ extended ps 0 = true)) (off : Off) (diag f : Cell → ℝ) (o : Outcome) :
    Solve ndim ps off diag f o ↔ ∃ u, o = .result u ∧ ∀ c ∈ cells, levelRow ndim cells off diag u c = f c := by
  rcases h with ⟨rfl, h⟩ | ⟨rfl, h⟩
  · refine solve_thin (D := 3) (y0 := 0) off diag f L.cells (Or.inl ⟨rfl, rfl⟩) ?_ ?_ o
    · exact fun p hp => ⟨L.nonempty p hp, fun h => absurd h (by norm_num), fun h => absurd h (by norm_num)⟩
    · rw [actualDim_eq]; simp [h]
  · by_cases hy : extended ps 1 = true
    · refine solve_thin (D := 2) (y0 := 0) off diag f L.cells (Or.inr ⟨rfl, Or.inr rfl⟩) ?_ ?_ o
      · exact fun p hp => ⟨L.nonempty p hp, fun _ => L.flat rfl p hp, fun h => absurd h (by norm_num)⟩
      · rw [actualDim_eq]; simp [h, hy]
    · obtain ⟨q, hq⟩ := List.exists_mem_of_ne_nil ps L.some
      refine solve_thin (D := 1) (y0 := q.lo.2.1) off diag f L.cells (Or.inr ⟨rfl, Or.inl rfl⟩) ?_ ?_ o
      · intro p hp
        refine ⟨L.nonempty p hp, fun _ => L.flat rfl p hp, fun _ => ?_⟩
        rw [extended_iff] at hy
        push Not at hy
        have h1 := hy p hp q hq
        have h2 := hy q hq p hp
        have h3 := L.nonempty p hp 1
        have h4 := L.nonempty q hq 1
        simp only [coord] at h1 h2 h3 h4
        omega
      · rw [actualDim_eq]; simp [h, hy]

/-- In the 3D program a level that is one cell thick in some direction, but not a single cell, is never solved: the copy loop
writes beyond its buffer, whatever the sizes, coefficients and patches. -/
theorem c122_violation_thin_3d {ps : List Patch} {cells : Finset Cell} (L : Level 3 ps cells)
    (h : ∃ d, extended ps d = false) (h' : ∃ d, extended ps d = true) (off : Off) (diag f : Cell → ℝ) (o : Outcome) :
    Solve 3 ps off diag f o ↔ o = .overflow := by
  have hD : 1 ≤ actualDim 3 ps ∧ actualDim 3 ps < 3 := by
    rw [actualDim_eq]
    obtain ⟨d, hd⟩ := h
    obtain ⟨d', hd'⟩ := h'
    fin_cases d <;> fin_cases d' <;> simp only [Fin.zero_eta, Fin.mk_one, Fin.reduceFinMk, Fin.isValue] at hd hd' <;>
      simp_all <;> split_ifs <;> simp
  obtain ⟨p, hp⟩ := List.exists_mem_of_ne_nil ps L.some
  have hsize : 0 < p.size := by
    have h0 := L.nonempty p hp 0
    have h1 := L.nonempty p hp 1
    have h2 := L.nonempty p hp 2
    have : ∀ d, coord d p.lo ≤ coord d p.hi → 0 < p.n d := by intro d h; simp only [Patch.n]; omega
    exact Nat.mul_pos (Nat.mul_pos (this 0 h0) (this 1 h1)) (this 2 h2)
  have ov : ∃ p ∈ ps, ∃ mem0, stencilSize (actualDim 3 ps) * p.size < (copyLoop 3 (actualDim 3 ps) p off diag mem0).offset := by
    refine ⟨p, hp, fun _ => 0, ?_⟩
    rw [(copy_spec 3 _ p off diag _ (Or.inl (by norm_num))).1]
    refine Nat.mul_lt_mul_of_pos_right ?_ hsize
    unfold stencilSize width
    rw [if_pos (show 3 > 2 by norm_num)]
    split_ifs <;> omega
  unfold Solve SolveWith
  rw [if_neg (by omega), if_pos ov]

/-- In the 2D program a level of one column (one patch) is not solved: the equation of its first cell is solved without its
neighbour, and the values of all other cells are arbitrary. -/
theorem c122_violation_column {p : Patch} {cells : Finset Cell} (L : Level 2 [p] cells) (hx : p.lo.1 = p.hi.1)
    (hy : p.lo.2.1 < p.hi.2.1) (off : Off) (diag f : Cell → ℝ) (o : Outcome) :
    Solve 2 [p] off diag f o ↔ ∃ u, o = .result u ∧ diag p.lo * u p.lo = f p.lo := by
  have hz := L.flat rfl p (by simp)
  have hdim : actualDim 2 [p] = 1 := by
    rw [actualDim_eq]
    simp [extended, coord, hx, hy]
  have n0 : p.n 0 = 1 := by simp [Patch.n, coord, hx]
  have n2 : p.n 2 = 1 := by simp [Patch.n, coord, hz]
  have n1 : 0 < p.n 1 := by simp only [Patch.n, coord]; omega
  have hsize : 0 < p.size := by unfold Patch.size; rw [n0, n2]; omega
  have hgr : ∀ g, inGrid 1 p g ↔ g = (p.lo.1, 0, 0) := by
    intro g
    obtain ⟨i, j, k⟩ := g
    constructor
    · rintro ⟨h1, h2⟩
      have h3 := h2 0 (by norm_num)
      simp [gridCell] at h1
      simp only [coord] at h3
      simp only [Prod.mk.injEq]
      omega
    · intro h
      simp only [Prod.mk.injEq] at h
      obtain ⟨rfl, rfl, rfl⟩ := h
      refine ⟨by simp [gridCell], ?_⟩
      intro d hd
      fin_cases d <;> simp [coord] at hd ⊢
      exact hx.le
  have hpos : gridPos 1 p (p.lo.1, 0, 0) = 0 := by simp [gridPos]
  have hcell : p.cell 0 = p.lo := by simp [Patch.cell]
  have set : ∀ v : Patch → ℕ → ℝ, setBoxes 1 [p] v (p.lo.1, 0, 0) = v p 0 := by
    intro v
    simp only [setBoxes, List.foldl_cons, List.foldl_nil]
    rw [if_pos ((hgr _).mpr rfl), hpos]
  have cs := fun mem0 => copy_spec 2 1 p off diag mem0 (Or.inr n2)
  have nov : ¬ ∃ q ∈ [p], ∃ mem0, stencilSize 1 * q.size < (copyLoop 2 1 q off diag mem0).offset := by
    rintro ⟨q, hq, mem0, h⟩
    rw [List.mem_singleton] at hq
    subst hq
    rw [(cs mem0).1] at h
    exact lt_irrefl _ h
  have hm : ∀ mem0, matrix 2 1 [p] off diag mem0 1 (p.lo.1, 0, 0) = diag p.lo := by
    intro mem0
    unfold matrix
    rw [set]
    have := (cs mem0).2 0 hsize 1 (by decide)
    rw [hcell] at this
    exact this
  have hr : rhsGrid 1 [p] f (p.lo.1, 0, 0) = f p.lo := by
    unfold rhsGrid
    rw [set, hcell]
  have hrow : ∀ (grid : Finset Cell) x mem0, (∀ g, g ∈ grid ↔ g = (p.lo.1, 0, 0)) →
      hypreRow 1 grid (matrix 2 1 [p] off diag mem0) x (p.lo.1, 0, 0) = diag p.lo * x (p.lo.1, 0, 0) := by
    intro grid x mem0 hgrid
    unfold hypreRow
    rw [hm, Finset.sum_eq_zero, add_zero]
    intro d _
    split_ifs with hd
    · unfold pairTerm
      rw [if_neg, if_neg, add_zero] <;> rw [hgrid] <;> fin_cases d <;> simp [mv] at hd ⊢
    · rfl
  unfold Solve
  rw [hdim]
  unfold SolveWith
  rw [if_neg (by norm_num), if_neg nov]
  constructor
  · rintro ⟨grid, x, mem0, u, hgrid, hsol, hback, rfl⟩
    have hgrid' : ∀ g, g ∈ grid ↔ g = (p.lo.1, 0, 0) := by intro g; rw [hgrid]; simp [hgr]
    refine ⟨u, rfl, ?_⟩
    have h1 := hsol _ ((hgrid' _).mpr rfl)
    rw [hrow grid x mem0 hgrid', hr] at h1
    have h2 := hback p (by simp) _ ((hgr _).mpr rfl)
    rw [hpos, hcell] at h2
    rw [h2, h1]
  · rintro ⟨u, rfl, hu⟩
    have hgrid' : ∀ g, g ∈ ({(p.lo.1, 0, 0)} : Finset Cell) ↔ g = (p.lo.1, 0, 0) := fun g => Finset.mem_singleton
    refine ⟨{(p.lo.1, 0, 0)}, fun _ => u p.lo, fun _ => 0, u, ?_, ?_, ?_, rfl⟩
    · intro g; rw [hgrid']; simp [hgr]
    · intro g hg
      rw [hgrid'] at hg
      subst hg
      rw [hrow _ _ _ hgrid', hr, hu]
    · intro q hq g hg
      rw [List.mem_singleton] at hq
      subst hq
      rw [(hgr g).mp hg, hpos, hcell]

/-- A level of one cell is refused. -/
theorem c122_one_cell (ndim : ℕ) (p : Patch) (h : p.lo = p.hi) (off : Off) (diag f : Cell → ℝ) (o : Outcome) :
    Solve ndim [p] off diag f o ↔ o = .refused := by
  have hdim : actualDim ndim [p] = 0 := by
    rw [actualDim_eq]
    simp [extended, h]
  unfold Solve
  rw [hdim]
  unfold SolveWith
  rw [if_pos rfl]

/-- In three dimensions the equations of `c122_exact_partial` are those of C121. -/
theorem c122_rows_3d (cells : Finset Cell) (s : LevelSolve3.Sys) (u : Cell → ℝ) (c : Cell) :
    levelRow 3 cells s.off s.diag u c = LevelSolve3.row cells s u c := by
  unfold levelRow LevelSolve3.row
  rw [Fin.sum_univ_three]
  simp only [Fin.val_zero, Fin.val_one, Fin.val_two]
  norm_num
  ring

/-- In two dimensions they are those of C78. -/
theorem c122_rows_2d (cells : Finset Cell) (cells2 : Finset LevelSolve.Cell) (hc : ∀ i j, (i, j, 0) ∈ cells ↔ (i, j) ∈ cells2)
    (s : LevelSolve.Sys) (off : Off) (diag u : Cell → ℝ) (u2 : LevelSolve.Cell → ℝ)
    (hx : ∀ i j, off 0 (i, j, 0) = s.off.x (i, j)) (hy : ∀ i j, off 1 (i, j, 0) = s.off.y (i, j))
    (hd : ∀ i j, diag (i, j, 0) = s.diag (i, j)) (hu : ∀ i j, u (i, j, 0) = u2 (i, j)) (i j : ℤ) :
    levelRow 2 cells off diag u (i, j, 0) = LevelSolve.row cells2 s u2 (i, j) := by
  unfold levelRow LevelSolve.row
  rw [Fin.sum_univ_three]
  simp only [Fin.val_zero, Fin.val_one, Fin.val_two, pairTerm, mv, hc, hx, hy, hd, hu, LevelSolve.nbr, ← sub_eq_add_neg]
  norm_num
  ring

/-- 2D face and cell values on the indices of this file. -/
def embedOff (o : LevelSolve.Off) : Off := fun d c => match d with
  | 0 => o.x (c.1, c.2.1)
  | 1 => o.y (c.1, c.2.1)
  | 2 => 0

/-- **C122** (partial), put together with C78: on 2D levels with more than one column, bars of one row included, the results of the
solve are the functions `Poisson.SolvedConst` of C78 speaks about (so `c78_exact_const` applies to them). -/
theorem c122_levels_2d_partial {ps : List Patch} {cells : Finset Cell} (L : Level 2 ps cells) (hext : extended ps 0 = true)
    (cells2 : Finset LevelSolve.Cell) (hc : ∀ i j, (i, j, 0) ∈ cells ↔ (i, j) ∈ cells2)
    (P : LevelSolve.Poisson) (m : ℝ) (bs : List LevelSolve.BdryBox) (f u : LevelSolve.Cell → ℝ) :
    Solve 2 ps (embedOff (P.systemConst m bs).off) (fun c => (P.systemConst m bs).diag (c.1, c.2.1)) (fun c => f (c.1, c.2.1))
      (.result fun c => u (c.1, c.2.1)) ↔ P.SolvedConst m cells2 bs f u := by
  rw [c122_exact_partial L (Or.inr ⟨rfl, hext⟩)]
  have hrow := c122_rows_2d cells cells2 hc (P.systemConst m bs) (embedOff (P.systemConst m bs).off)
    (fun c => (P.systemConst m bs).diag (c.1, c.2.1)) (fun c => u (c.1, c.2.1)) u (fun _ _ => rfl) (fun _ _ => rfl)
    (fun _ _ => rfl) (fun _ _ => rfl)
  have hz : ∀ c ∈ cells, c.2.2 = 0 := by
    intro c h
    obtain ⟨p, hp, h1⟩ := (L.cells c).mp h
    have h2 := h1 2
    have h3 := L.flat rfl p hp
    simp only [coord] at h2
    omega
  constructor
  · rintro ⟨u', e, h⟩ c hc2
    cases e
    have := h (c.1, c.2, 0) ((hc _ _).mpr hc2)
    rw [hrow] at this
    exact this
  · intro h
    refine ⟨_, rfl, ?_⟩
    rintro ⟨i, j, k⟩ hcell
    have hk : k = 0 := hz _ hcell
    subst hk
    rw [hrow]
    exact h (i, j) ((hc _ _).mp hcell)

/-! ## Hypotheses are met -/

/-- A bar of 5 by 1 cells in two patches. -/
example : ∃ cells, Level 2 [⟨(0, 7, 0), (2, 7, 0)⟩, ⟨(3, 7, 0), (4, 7, 0)⟩] cells ∧
    extended [⟨(0, 7, 0), (2, 7, 0)⟩, ⟨(3, 7, 0), (4, 7, 0)⟩] 0 = true := by
  refine ⟨LevelSolve3.Props.cuboid (0, 7, 0) (4, 7, 0), ⟨?_, ?_, by simp, ?_⟩, by decide⟩
  · rintro ⟨i, j, k⟩
    simp only [LevelSolve3.Props.mem_cuboid, List.mem_cons, List.not_mem_nil, or_false, exists_eq_or_imp, exists_eq_left,
      Patch.has, Fin.forall_fin_succ, Fin.forall_fin_zero_pi, IsEmpty.forall_iff, and_true]
    simp only [coord, Fin.succ_zero_eq_one, Fin.succ_one_eq_two]
    omega
  · intro p hp d
    simp only [List.mem_cons, List.not_mem_nil, or_false] at hp
    rcases hp with rfl | rfl <;> fin_cases d <;> simp [coord]
  · intro _ p hp
    simp only [List.mem_cons, List.not_mem_nil, or_false] at hp
    rcases hp with rfl | rfl <;> simp

theorem one_patch_level (ndim : ℕ) (lo hi : Cell) (h : ∀ d, coord d lo ≤ coord d hi) (hz : ndim = 2 → lo.2.2 = 0 ∧ hi.2.2 = 0) :
    Level ndim [⟨lo, hi⟩] (LevelSolve3.Props.cuboid lo hi) := by
  refine ⟨?_, ?_, by simp, ?_⟩
  · rintro ⟨i, j, k⟩
    simp only [LevelSolve3.Props.mem_cuboid, List.mem_cons, List.not_mem_nil, or_false, exists_eq_left, Patch.has]
    constructor
    · rintro ⟨h1, h2, h3⟩ d
      fin_cases d <;> simp only [coord]
      · exact h1
      · exact h2
      · exact h3
    · intro h1
      exact ⟨h1 0, h1 1, h1 2⟩
  · intro p hp
    rw [List.mem_singleton] at hp
    subst hp
    exact h
  · intro h2 p hp
    rw [List.mem_singleton] at hp
    subst hp
    exact hz h2

/-- The input check lets through samples the solver cannot treat: every 3D sample that is one cell thick in a direction that is not
periodic (and not a single cell) is accepted, and the solve on its coarsest level overflows. -/
theorem c122_violation_accepted (G : Geometry) (hpos : ∀ d, 0 < G.resolution d)
    (hper : ∀ d, G.resolution d = 1 → G.periodic d = false) (h1 : ∃ d, G.resolution d = 1) (h2 : ∃ d, G.resolution d ≠ 1)
    (off : Off) (diag f : Cell → ℝ) (o : Outcome) :
    G.accepted 3 ∧ (Solve 3 [G.domain 3] off diag f o ↔ o = .overflow) := by
  refine ⟨fun d _ h => absurd h.2 (by rw [hper d h.1]; exact Bool.false_ne_true), ?_⟩
  have hext : ∀ d, extended [G.domain 3] d = true ↔ G.resolution d ≠ 1 := by
    intro d
    have := hpos d
    rw [extended_iff]
    simp only [List.mem_singleton, exists_eq_left]
    fin_cases d <;> simp [Geometry.domain, coord] at this ⊢ <;> omega
  refine c122_violation_thin_3d (cells := LevelSolve3.Props.cuboid (G.domain 3).lo (G.domain 3).hi)
    (one_patch_level 3 _ _ ?_ (by norm_num)) ?_ ?_ off diag f o
  · intro d
    have := hpos d
    fin_cases d <;> simp [Geometry.domain, coord] at this ⊢ <;> omega
  · obtain ⟨d, hd⟩ := h1
    refine ⟨d, ?_⟩
    rw [Bool.eq_false_iff]
    intro h
    exact (hext d).mp h hd
  · obtain ⟨d, hd⟩ := h2
    exact ⟨d, (hext d).mpr hd⟩

/-- In the 2D program, whatever the third entry of the resolution: every accepted sample with more than one column has its coarsest level
solved (`_partial`), and every accepted one of a single column and several rows does not: all values but one are arbitrary. -/
theorem c122_accepted_2d_partial (G : Geometry) (hpos : ∀ d, 0 < G.resolution d) (hacc : G.accepted 2) (off : Off) (diag f : Cell → ℝ)
    (o : Outcome) :
    (1 < G.resolution 0 → (Solve 2 [G.domain 2] off diag f o ↔ ∃ u, o = .result u ∧
      ∀ i j : ℤ, 0 ≤ i → i < G.resolution 0 → 0 ≤ j → j < G.resolution 1 →
        levelRow 2 (LevelSolve3.Props.cuboid (0, 0, 0) ((G.resolution 0 : ℤ) - 1, (G.resolution 1 : ℤ) - 1, 0)) off diag u (i, j, 0) =
          f (i, j, 0))) ∧
    (G.resolution 0 = 1 → 1 < G.resolution 1 → G.periodic 0 = false ∧
      (Solve 2 [G.domain 2] off diag f o ↔ ∃ u, o = .result u ∧ diag (0, 0, 0) * u (0, 0, 0) = f (0, 0, 0))) := by
  have h0 := hpos 0
  have h1 := hpos 1
  have hdom : G.domain 2 = ⟨(0, 0, 0), ((G.resolution 0 : ℤ) - 1, (G.resolution 1 : ℤ) - 1, 0)⟩ := by simp [Geometry.domain]
  have L : Level 2 [G.domain 2] (LevelSolve3.Props.cuboid (0, 0, 0) ((G.resolution 0 : ℤ) - 1, (G.resolution 1 : ℤ) - 1, 0)) := by
    rw [hdom]
    refine one_patch_level 2 _ _ ?_ (by simp)
    intro d
    fin_cases d <;> simp [coord] <;> omega
  constructor
  · intro hx
    rw [c122_exact_partial L (Or.inr ⟨rfl, ?_⟩)]
    · refine exists_congr fun u => and_congr_right fun _ => ⟨fun h i j hi hi' hj hj' => h _ ?_, ?_⟩
      · rw [LevelSolve3.Props.mem_cuboid]
        refine ⟨⟨hi, ?_⟩, ⟨hj, ?_⟩, le_rfl, le_rfl⟩ <;> simp <;> omega
      · rintro h ⟨i, j, k⟩ hc
        rw [LevelSolve3.Props.mem_cuboid] at hc
        obtain ⟨⟨a, b⟩, ⟨c, d⟩, e, e'⟩ := hc
        simp only at a b c d e e'
        obtain rfl : k = 0 := le_antisymm e' e
        exact h i j a (by omega) c (by omega)
    · rw [extended_iff, hdom]
      simp [coord]; omega
  · intro hx hy
    refine ⟨?_, ?_⟩
    · have := hacc 0 (by norm_num)
      simpa [hx] using this
    · have := c122_violation_column (p := G.domain 2) L (by rw [hdom]; simp [hx]) (by rw [hdom]; simp; omega) off diag f o
      rw [this, hdom]

/-- A plate of 8 x 8 x 1 cells in the 3D program overflows. -/
example (off : Off) (diag f : Cell → ℝ) (o : Outcome) : Solve 3 [⟨(0, 0, 0), (7, 7, 0)⟩] off diag f o ↔ o = .overflow :=
  c122_violation_thin_3d (one_patch_level 3 (0, 0, 0) (7, 7, 0) (by intro d; fin_cases d <;> simp [coord]) (by norm_num))
    ⟨2, by decide⟩ ⟨0, by decide⟩ off diag f o

/-- A column of two cells, heat equation with coefficient 1 on both: 0 in the first cell and 5 in the second is accepted as the result
for the right-hand side 0, although the only solution of the equations is 0. -/
example : Solve 2 [⟨(0, 0, 0), (0, 1, 0)⟩] (fun _ _ => -1) (fun _ => 2) (fun _ => 0) (.result fun c => 5 * c.2.1) ∧
    levelRow 2 (LevelSolve3.Props.cuboid (0, 0, 0) (0, 1, 0)) (fun _ _ => -1) (fun _ => 2) (fun c => 5 * c.2.1) (0, 0, 0) ≠ 0 := by
  refine ⟨(c122_violation_column (one_patch_level 2 (0, 0, 0) (0, 1, 0) (by intro d; fin_cases d <;> simp [coord]) (by simp))
    rfl (by simp) _ _ _ _).mpr ⟨_, rfl, by simp⟩, ?_⟩
  simp [levelRow, pairTerm, Fin.sum_univ_three, LevelSolve3.Props.mem_cuboid, mv]

end AMPE.HandOver.Props
