import Verif.Proofs.GrainSystem
import Verif.Props.Boundary
import Verif.Props.PhaseBounds

/-!
# A grain structure between walls as a finite system

A state between walls without flux, reflected at the walls again and again, is a periodic state of twice the length that follows the same
equations.
-/

namespace AMPE.Walls

open AMPE.Functions AMPE.Flux AMPE.PhaseRHS AMPE.PhaseRHS.Props AMPE.PhaseBounds AMPE.PhaseBounds.Props AMPE.MultiBounds AMPE.GrainFlow
  AMPE.GrainFlow.Props AMPE.MeltFlow AMPE.Rest AMPE.GrainRest AMPE.GrainRest.Props AMPE.Existence AMPE.GrainSystem

/-- The nearest cell of a row of `N` cells. -/
def nearest (N : ℕ) (i : ℤ) : ℤ := max 0 (min i (N - 1))

/-- The cell whose image is at `i` when the row is reflected again and again. -/
def fold (N : ℕ) (i : ℤ) : ℤ := if i % (2 * N : ℕ) < N then i % (2 * N : ℕ) else 2 * N - 1 - i % (2 * N : ℕ)

theorem nearest_mem {N : ℕ} (hN : 0 < N) (i : ℤ) : 0 ≤ nearest N i ∧ nearest N i < N := by unfold nearest; omega

theorem nearest_inside {N : ℕ} {i : ℤ} (h : 0 ≤ i ∧ i < N) : nearest N i = i := by unfold nearest; omega

theorem fold_at {N : ℕ} (r q : ℤ) (h : 0 ≤ r ∧ r < 2 * N) : fold N (r + q * (2 * N)) = if r < N then r else 2 * N - 1 - r := by
  have e : (r + q * (2 * N)) % ((2 * N : ℕ) : ℤ) = r := by
    push_cast
    rw [Int.add_mul_emod_self_right]
    exact Int.emod_eq_of_lt h.1 h.2
  unfold fold
  rw [e]

theorem parts {N : ℕ} (hN : 0 < N) (i : ℤ) : ∃ r q : ℤ, (0 ≤ r ∧ r < 2 * N) ∧ i = r + q * (2 * N) := by
  refine ⟨i % (2 * N), i / (2 * N), ⟨Int.emod_nonneg _ (by omega), Int.emod_lt_of_pos _ (by omega)⟩, ?_⟩
  have := Int.emod_add_mul_ediv i (2 * N)
  linarith

theorem fold_mem {N : ℕ} (hN : 0 < N) (i : ℤ) : 0 ≤ fold N i ∧ fold N i < N := by
  obtain ⟨r, q, h, rfl⟩ := parts hN i
  rw [fold_at r q h]
  split_ifs <;> omega

theorem fold_inside {N : ℕ} {i : ℤ} (h : 0 ≤ i ∧ i < N) : fold N i = i := by
  have := fold_at (N := N) i 0 ⟨h.1, by omega⟩
  rw [zero_mul, add_zero, if_pos h.2] at this
  exact this

theorem fold_period (N : ℕ) (i : ℤ) : fold N (i + (2 * N : ℕ)) = fold N i := by
  unfold fold
  rw [Int.add_emod_right]

/-- The neighbours of the image are the images of the neighbours, in this or in the other order. -/
theorem fold_next {N : ℕ} (hN : 0 < N) (i : ℤ) :
    (fold N (i + 1) = nearest N (fold N i + 1) ∧ fold N (i + -1) = nearest N (fold N i + -1)) ∨
    (fold N (i + 1) = nearest N (fold N i + -1) ∧ fold N (i + -1) = nearest N (fold N i + 1)) := by
  obtain ⟨r, q, h, rfl⟩ := parts hN i
  have up : fold N (r + q * (2 * N) + 1) = if r + 1 < 2 * N then (if r + 1 < N then r + 1 else 2 * N - 1 - (r + 1)) else 0 := by
    split_ifs with h1 h2
    · rw [show r + q * (2 * N) + 1 = (r + 1) + q * (2 * N) by ring, fold_at _ _ ⟨by omega, h1⟩, if_pos h2]
    · rw [show r + q * (2 * N) + 1 = (r + 1) + q * (2 * N) by ring, fold_at _ _ ⟨by omega, h1⟩, if_neg h2]
    · have : r = 2 * N - 1 := by omega
      rw [show r + q * (2 * N) + 1 = 0 + (q + 1) * (2 * N) by rw [this]; ring, fold_at _ _ ⟨le_rfl, by omega⟩, if_pos (by omega)]
  have down : fold N (r + q * (2 * N) + -1) = if 0 ≤ r - 1 then (if r - 1 < N then r - 1 else 2 * N - 1 - (r - 1)) else 0 := by
    split_ifs with h1 h2
    · rw [show r + q * (2 * N) + -1 = (r - 1) + q * (2 * N) by ring, fold_at _ _ ⟨h1, by omega⟩, if_pos h2]
    · rw [show r + q * (2 * N) + -1 = (r - 1) + q * (2 * N) by ring, fold_at _ _ ⟨h1, by omega⟩, if_neg h2]
    · have : r = 0 := by omega
      rw [show r + q * (2 * N) + -1 = (2 * N - 1) + (q - 1) * (2 * N) by rw [this]; ring, fold_at _ _ ⟨by omega, by omega⟩,
        if_neg (by omega)]
      omega
  rw [up, down, fold_at r q h]
  unfold nearest
  by_cases hr : r < N
  · left
    rw [if_pos hr]
    constructor <;> split_ifs <;> omega
  · right
    rw [if_neg hr]
    constructor <;> split_ifs <;> omega

/-! ## 2D -/

section
variable {n N M : ℕ}

/-- Ghost cells hold the value of the nearest cell. -/
def near2 (N M : ℕ) (u : Field2) : Field2 := fun i j => u (nearest N i) (nearest M j)

/-- The reflected state. -/
def mirror2 (N M : ℕ) (u : Field2) : Field2 := fun i j => u (fold N i) (fold M j)

theorem mirror2_per (u : Field2) : Periodic2 (2 * N) (2 * M) (mirror2 N M u) :=
  ⟨fun i j => by unfold mirror2; rw [fold_period], fun i j => by unfold mirror2; rw [fold_period]⟩

theorem mirror_diff (hN : 0 < N) (hM : 0 < M) (st : Stencil) (eps dx dy : ℝ) (u : Field2) (i j : ℤ) :
    diffTerm2 st eps dx dy (mirror2 N M u) i j = diffTerm2 st eps dx dy (near2 N M u) (fold N i) (fold M j) := by
  have ei := nearest_inside (fold_mem hN i)
  have ej := nearest_inside (fold_mem hM j)
  rcases fold_next hN i with ⟨h1, h2⟩ | ⟨h1, h2⟩ <;> rcases fold_next hM j with ⟨h3, h4⟩ | ⟨h3, h4⟩ <;> cases st <;>
    simp only [diff_simple, diff_iso, mirror2, near2, h1, h2, h3, h4, ei, ej] <;> ring

variable (n) in
theorem mirror_rate (hN : 0 < N) (hM : 0 < M) (st : Stencil) (eps gamma m dx dy : ℝ) (mob : Field2) (phi : Fin (n + 1) → Field2)
    (p : Fin (n + 1)) (i j : ℤ) :
    rateMulti2 n st .fixed eps gamma m dx dy (mirror2 N M mob) (fun _ _ => .none) (fun q => mirror2 N M (phi q)) p i j =
      rateMulti2 n st .fixed eps gamma m dx dy mob (fun _ _ => .none) (fun q => near2 N M (phi q)) p (fold N i) (fold M j) := by
  have ei := nearest_inside (fold_mem hN i)
  have ej := nearest_inside (fold_mem hM j)
  simp only [rateMulti2, frameTerm, mirror_diff hN hM]
  simp only [mirror2, near2, ei, ej]

/-- What the program puts in the ghost cells next to walls without flux. -/
theorem fill_near (hN : 0 < N) (hM : 0 < M) (coef : Boundary.Side → Boundary.Coef) (hc : ∀ s, Boundary.Props.ZeroGradient (coef s)) (dx dy : ℝ) (u : Field2)
    (i j : ℤ) (hi : -1 ≤ i ∧ i ≤ N) (hj : -1 ≤ j ∧ j ≤ M) :
    Boundary.fillDepth (Boundary.Props.boxOf 0 0 N M) (fun _ => true) coef dx dy u i j = near2 N M u i j := by
  have ci : i = -1 ∨ i = N ∨ (0 ≤ i ∧ i < N) := by omega
  have cj : j = -1 ∨ j = M ∨ (0 ≤ j ∧ j < M) := by omega
  have n1 : nearest N (-1) = 0 := by unfold nearest; omega
  have n2 : nearest N N = N - 1 := by unfold nearest; omega
  have m1 : nearest M (-1) = 0 := by unfold nearest; omega
  have m2 : nearest M M = M - 1 := by unfold nearest; omega
  have E : ∀ i j : ℤ, (0 ≤ i ∧ i < N ∧ (j = -1 ∨ j = M)) ∨ (0 ≤ j ∧ j < M ∧ (i = -1 ∨ i = N)) ∨ (0 ≤ i ∧ i < N ∧ 0 ≤ j ∧ j < M) →
      Boundary.fillEdges (Boundary.Props.boxOf 0 0 N M) (fun _ => true) coef dx dy u i j = near2 N M u i j := by
    intro i j h
    unfold Boundary.fillEdges near2
    simp only [Boundary.Props.boxOf, Boundary.Props.ghost_zero (hc _), true_and, zero_add]
    rcases h with ⟨h1, h2, rfl | rfl⟩ | ⟨h1, h2, rfl | rfl⟩ | ⟨h1, h2, h3, h4⟩
    · rw [if_neg (by omega), if_neg (by omega), if_pos (by omega), m1, nearest_inside ⟨h1, h2⟩]
    · rw [if_neg (by omega), if_neg (by omega), if_neg (by omega), if_pos (by omega), m2, nearest_inside ⟨h1, h2⟩]
    · rw [if_pos (by omega), n1, nearest_inside ⟨h1, h2⟩]
    · rw [if_neg (by omega), if_pos (by omega), n2, nearest_inside ⟨h1, h2⟩]
    · rw [if_neg (by omega), if_neg (by omega), if_neg (by omega), if_neg (by omega), nearest_inside ⟨h1, h2⟩, nearest_inside ⟨h3, h4⟩]
  have z0 : nearest N 0 = 0 := nearest_inside ⟨le_rfl, by omega⟩
  have z1 : nearest M 0 = 0 := nearest_inside ⟨le_rfl, by omega⟩
  have l0 : nearest N (N - 1) = N - 1 := nearest_inside ⟨by omega, by omega⟩
  have l1 : nearest M (M - 1) = M - 1 := nearest_inside ⟨by omega, by omega⟩
  unfold Boundary.fillDepth Boundary.fillCorners
  simp only [Boundary.Props.boxOf, true_and, zero_add, zero_sub]
  have e := E
  simp only [Boundary.Props.boxOf, zero_add] at e
  rcases ci with rfl | rfl | hi' <;> rcases cj with rfl | rfl | hj'
  · rw [if_pos (by omega), e _ _ (by omega), e _ _ (by omega), e _ _ (by omega)]; simp only [near2, n1, m1, z0, z1]; ring
  · rw [if_neg (by omega), if_neg (by omega), if_pos (by omega), e _ _ (by omega), e _ _ (by omega), e _ _ (by omega)]
    simp only [near2, n1, m2, z0, l1]; ring
  · rw [if_neg (by omega), if_neg (by omega), if_neg (by omega), if_neg (by omega), e _ _ (by omega)]
  · rw [if_neg (by omega), if_pos (by omega), e _ _ (by omega), e _ _ (by omega), e _ _ (by omega)]
    simp only [near2, n2, m1, z1, l0]; ring
  · rw [if_neg (by omega), if_neg (by omega), if_neg (by omega), if_pos (by omega), e _ _ (by omega), e _ _ (by omega), e _ _ (by omega)]
    simp only [near2, n2, m2, l0, l1]; ring
  all_goals rw [if_neg (by omega), if_neg (by omega), if_neg (by omega), if_neg (by omega), e _ _ (by omega)]

theorem fill_rate (hN : 0 < N) (hM : 0 < M) (coef : Boundary.Side → Boundary.Coef) (hc : ∀ s, Boundary.Props.ZeroGradient (coef s))
    (st : Stencil) (eps gamma m dx dy : ℝ) (mob : Field2) (phi : Fin (n + 1) → Field2) (p : Fin (n + 1)) (i j : ℤ) (hi : 0 ≤ i ∧ i < N)
    (hj : 0 ≤ j ∧ j < M) :
    rateMulti2 n st .fixed eps gamma m dx dy mob (fun _ _ => .none)
        (fun q => Boundary.fillDepth (Boundary.Props.boxOf 0 0 N M) (fun _ => true) coef dx dy (phi q)) p i j =
      rateMulti2 n st .fixed eps gamma m dx dy mob (fun _ _ => .none) (fun q => near2 N M (phi q)) p i j := by
  have f := fun (u : Field2) a b ha hb => fill_near hN hM coef hc dx dy u a b ha hb
  have d : ∀ q, diffTerm2 st eps dx dy (Boundary.fillDepth (Boundary.Props.boxOf 0 0 N M) (fun _ => true) coef dx dy (phi q)) i j
      = diffTerm2 st eps dx dy (near2 N M (phi q)) i j := by
    intro q
    cases st
    · rw [diff_simple, diff_simple, f _ (i + 1) j (by omega) (by omega), f _ (i + -1) j (by omega) (by omega), f _ i j (by omega) (by omega),
        f _ i (j + 1) (by omega) (by omega), f _ i (j + -1) (by omega) (by omega)]
    · rw [diff_iso, diff_iso, f _ (i + 1) j (by omega) (by omega), f _ (i + -1) j (by omega) (by omega), f _ i j (by omega) (by omega),
        f _ i (j + 1) (by omega) (by omega), f _ i (j + -1) (by omega) (by omega), f _ (i + 1) (j + 1) (by omega) (by omega),
        f _ (i + 1) (j + -1) (by omega) (by omega), f _ (i + -1) (j + 1) (by omega) (by omega), f _ (i + -1) (j + -1) (by omega) (by omega)]
  simp only [rateMulti2, frameTerm, d]
  have v : ∀ q, Boundary.fillDepth (Boundary.Props.boxOf 0 0 N M) (fun _ => true) coef dx dy (phi q) i j = near2 N M (phi q) i j :=
    fun q => f _ i j (by omega) (by omega)
  simp only [v]

/-- The cells of a box as arguments. -/
def cells2 (N M : ℕ) (hN : 0 < N) (hM : 0 < M) (y : Fin (n + 1) × Fin N × Fin M → ℝ) : Fin (n + 1) → Field2 := fun p i j =>
  y (p, ⟨(nearest N i).toNat, by have := nearest_mem hN i; omega⟩, ⟨(nearest M j).toNat, by have := nearest_mem hM j; omega⟩)

variable (n) in
/-- The rates of the cells between the walls. -/
noncomputable def wallRates2 (st : Stencil) (eps gamma m dx dy : ℝ) (N M : ℕ) (hN : 0 < N) (hM : 0 < M) (mob : Field2)
    (y : Fin (n + 1) × Fin N × Fin M → ℝ) : Fin (n + 1) × Fin N × Fin M → ℝ := fun q =>
  rateMulti2 n st .fixed eps gamma m dx dy mob (fun _ _ => .none) (cells2 N M hN hM y) q.1 (q.2.1 : ℕ) (q.2.2 : ℕ)

theorem wallRates2_smooth (st : Stencil) (eps gamma m dx dy : ℝ) (hN : 0 < N) (hM : 0 < M) (mob : Field2) :
    LocallyLipschitz (wallRates2 n st eps gamma m dx dy N M hN hM mob) := by
  refine ContDiff.locallyLipschitz (𝕂 := ℝ) ?_
  refine contDiff_pi.2 fun q => ?_
  cases st <;>
    simp only [wallRates2, rateMulti2, cellRateM, multiWell, drive, frameTerm, diffTerm2, div2, gradFluxX, gradFluxY, isoFluxX, isoFluxY, cells2,
      div_eq_mul_inv] <;> fun_prop

/-- The values of a state in the box. -/
def read2 (N M : ℕ) (phi : Fin (n + 1) → Field2) : Fin (n + 1) × Fin N × Fin M → ℝ := fun q => phi q.1 (q.2.1 : ℕ) (q.2.2 : ℕ)

theorem cells_read (hN : 0 < N) (hM : 0 < M) (phi : Fin (n + 1) → Field2) : cells2 N M hN hM (read2 N M phi) = fun p => near2 N M (phi p) := by
  funext p i j
  have h1 := nearest_mem hN i
  have h2 := nearest_mem hM j
  simp only [cells2, read2, near2, Int.toNat_of_nonneg h1.1, Int.toNat_of_nonneg h2.1]

theorem near_cells (hN : 0 < N) (hM : 0 < M) (y : Fin (n + 1) × Fin N × Fin M → ℝ) (p : Fin (n + 1)) :
    near2 N M (cells2 N M hN hM y p) = cells2 N M hN hM y p := by
  funext i j
  simp only [near2, cells2, nearest_inside (nearest_mem hN i), nearest_inside (nearest_mem hM j)]

theorem read_cells (hN : 0 < N) (hM : 0 < M) (y : Fin (n + 1) × Fin N × Fin M → ℝ) : read2 N M (cells2 N M hN hM y) = y := by
  funext q
  obtain ⟨p, a, b⟩ := q
  have h1 : nearest N ((a : ℕ) : ℤ) = (a : ℕ) := nearest_inside ⟨by omega, by have := a.2; omega⟩
  have h2 : nearest M ((b : ℕ) : ℤ) = (b : ℕ) := nearest_inside ⟨by omega, by have := b.2; omega⟩
  simp only [read2, cells2, h1, h2, Int.toNat_natCast]

end

end AMPE.Walls
