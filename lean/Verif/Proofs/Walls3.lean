import Verif.Proofs.Walls
import Verif.Model.Boundary3

/-! # A grain structure between walls as a finite system, 3D -/

namespace AMPE.Walls

open AMPE.Functions AMPE.Flux AMPE.PhaseRHS AMPE.PhaseRHS.Props AMPE.PhaseBounds AMPE.PhaseBounds.Props AMPE.MultiBounds AMPE.GrainFlow
  AMPE.GrainFlow.Props AMPE.MeltFlow AMPE.Rest AMPE.GrainRest AMPE.GrainRest.Props AMPE.Existence AMPE.GrainSystem

variable {n N M K : ℕ}

/-- The box of `N × M × K` cells that starts in the origin. -/
def box3 (N M K : ℕ) : Boundary.Box3 := ⟨0, N - 1, 0, M - 1, 0, K - 1⟩

/-- Ghost cells hold the value of the nearest cell. -/
def near3 (N M K : ℕ) (u : Field3) : Field3 := fun i j k => u (nearest N i) (nearest M j) (nearest K k)

/-- The reflected state. -/
def mirror3 (N M K : ℕ) (u : Field3) : Field3 := fun i j k => u (fold N i) (fold M j) (fold K k)

theorem mirror3_per (u : Field3) : Periodic3 (2 * N) (2 * M) (2 * K) (mirror3 N M K u) :=
  ⟨fun i j k => by unfold mirror3; rw [fold_period], fun i j k => by unfold mirror3; rw [fold_period],
    fun i j k => by unfold mirror3; rw [fold_period]⟩

/-- The seven-point stencil written out. -/
theorem diff_seven (eps dx dy dz : ℝ) (u : Field3) (i j k : ℤ) :
    div3 dx dy dz (gradFlux3X eps dx u) (gradFlux3Y eps dy u) (gradFlux3Z eps dz u) i j k =
      eps ^ 2 * ((u (i + 1) j k - 2 * u i j k + u (i + -1) j k) / dx / dx + (u i (j + 1) k - 2 * u i j k + u i (j + -1) k) / dy / dy
        + (u i j (k + 1) - 2 * u i j k + u i j (k + -1)) / dz / dz) := by
  simp only [div3, gradFlux3X, gradFlux3Y, gradFlux3Z, ← sub_eq_add_neg, add_sub_cancel_right, sub_add_cancel]
  ring

theorem mirror_diff3 (hN : 0 < N) (hM : 0 < M) (hK : 0 < K) (eps dx dy dz : ℝ) (u : Field3) (i j k : ℤ) :
    div3 dx dy dz (gradFlux3X eps dx (mirror3 N M K u)) (gradFlux3Y eps dy (mirror3 N M K u)) (gradFlux3Z eps dz (mirror3 N M K u)) i j k =
      div3 dx dy dz (gradFlux3X eps dx (near3 N M K u)) (gradFlux3Y eps dy (near3 N M K u)) (gradFlux3Z eps dz (near3 N M K u))
        (fold N i) (fold M j) (fold K k) := by
  have ei := nearest_inside (fold_mem hN i)
  have ej := nearest_inside (fold_mem hM j)
  have ek := nearest_inside (fold_mem hK k)
  rcases fold_next hN i with ⟨h1, h2⟩ | ⟨h1, h2⟩ <;> rcases fold_next hM j with ⟨h3, h4⟩ | ⟨h3, h4⟩ <;>
    rcases fold_next hK k with ⟨h5, h6⟩ | ⟨h5, h6⟩ <;>
    simp only [diff_seven, mirror3, near3, h1, h2, h3, h4, h5, h6, ei, ej, ek] <;> ring

variable (n) in
theorem mirror_rate3 (hN : 0 < N) (hM : 0 < M) (hK : 0 < K) (eps gamma m dx dy dz : ℝ) (mob : Field3) (phi : Fin (n + 1) → Field3)
    (p : Fin (n + 1)) (i j k : ℤ) :
    rateMulti3 n .fixed eps gamma m dx dy dz (mirror3 N M K mob) (fun _ _ _ => .none) (fun q => mirror3 N M K (phi q)) p i j k =
      rateMulti3 n .fixed eps gamma m dx dy dz mob (fun _ _ _ => .none) (fun q => near3 N M K (phi q)) p (fold N i) (fold M j) (fold K k) := by
  have ei := nearest_inside (fold_mem hN i)
  have ej := nearest_inside (fold_mem hM j)
  have ek := nearest_inside (fold_mem hK k)
  simp only [rateMulti3, frameTerm, mirror_diff3 hN hM hK]
  simp only [mirror3, near3, ei, ej, ek]

/-- What the program puts in the ghost cells next to the faces. -/
theorem fill_near3 (hN : 0 < N) (hM : 0 < M) (hK : 0 < K) (coef : Boundary.Side3 → Boundary.Coef)
    (hc : ∀ s, Boundary.Props.ZeroGradient (coef s)) (dx dy dz : ℝ) (u : Field3) (i j k : ℤ)
    (h : ((i = -1 ∨ i = N ∨ (0 ≤ i ∧ i < N)) ∧ (0 ≤ j ∧ j < M) ∧ (0 ≤ k ∧ k < K)) ∨
      ((0 ≤ i ∧ i < N) ∧ (j = -1 ∨ j = M) ∧ (0 ≤ k ∧ k < K)) ∨ ((0 ≤ i ∧ i < N) ∧ (0 ≤ j ∧ j < M) ∧ (k = -1 ∨ k = K))) :
    Boundary.fillFaces3 (box3 N M K) (fun _ => true) coef dx dy dz u i j k = near3 N M K u i j k := by
  have lo : ∀ {L : ℕ}, 0 < L → nearest L (-1) = 0 := by intro L hL; unfold nearest; omega
  have hi : ∀ {L : ℕ}, 0 < L → nearest L L = L - 1 := by intro L hL; unfold nearest; omega
  unfold Boundary.fillFaces3 near3
  simp only [box3, Boundary.Props.ghost_zero (hc _), true_and]
  rcases h with ⟨rfl | rfl | c, a, b⟩ | ⟨a, rfl | rfl, b⟩ | ⟨a, b, rfl | rfl⟩
  · rw [if_pos (by omega), lo hN, nearest_inside a, nearest_inside b]
  · rw [if_neg (by omega), if_pos (by omega), hi hN, nearest_inside a, nearest_inside b]
  · rw [if_neg (by omega), if_neg (by omega), if_neg (by omega), if_neg (by omega), if_neg (by omega), if_neg (by omega),
      nearest_inside a, nearest_inside b, nearest_inside c]
  · rw [if_neg (by omega), if_neg (by omega), if_pos (by omega), lo hM, nearest_inside a, nearest_inside b]
  · rw [if_neg (by omega), if_neg (by omega), if_neg (by omega), if_pos (by omega), hi hM, nearest_inside a, nearest_inside b]
  · rw [if_neg (by omega), if_neg (by omega), if_neg (by omega), if_neg (by omega), if_pos (by omega), lo hK, nearest_inside a,
      nearest_inside b]
  · rw [if_neg (by omega), if_neg (by omega), if_neg (by omega), if_neg (by omega), if_neg (by omega), if_pos (by omega), hi hK,
      nearest_inside a, nearest_inside b]

theorem fill_rate3 (hN : 0 < N) (hM : 0 < M) (hK : 0 < K) (coef : Boundary.Side3 → Boundary.Coef)
    (hc : ∀ s, Boundary.Props.ZeroGradient (coef s)) (eps gamma m dx dy dz : ℝ) (mob : Field3) (phi : Fin (n + 1) → Field3) (p : Fin (n + 1))
    (i j k : ℤ) (hi : 0 ≤ i ∧ i < N) (hj : 0 ≤ j ∧ j < M) (hk : 0 ≤ k ∧ k < K) :
    rateMulti3 n .fixed eps gamma m dx dy dz mob (fun _ _ _ => .none)
        (fun q => Boundary.fillFaces3 (box3 N M K) (fun _ => true) coef dx dy dz (phi q)) p i j k =
      rateMulti3 n .fixed eps gamma m dx dy dz mob (fun _ _ _ => .none) (fun q => near3 N M K (phi q)) p i j k := by
  have f := fun (u : Field3) a b c h => fill_near3 hN hM hK coef hc dx dy dz u a b c h
  have d : ∀ q, div3 dx dy dz (gradFlux3X eps dx (Boundary.fillFaces3 (box3 N M K) (fun _ => true) coef dx dy dz (phi q)))
      (gradFlux3Y eps dy (Boundary.fillFaces3 (box3 N M K) (fun _ => true) coef dx dy dz (phi q)))
      (gradFlux3Z eps dz (Boundary.fillFaces3 (box3 N M K) (fun _ => true) coef dx dy dz (phi q))) i j k
      = div3 dx dy dz (gradFlux3X eps dx (near3 N M K (phi q))) (gradFlux3Y eps dy (near3 N M K (phi q)))
        (gradFlux3Z eps dz (near3 N M K (phi q))) i j k := by
    intro q
    have next : ∀ {L : ℕ} {a b : ℤ}, (0 ≤ a ∧ a < L) → (b = a + 1 ∨ b = a + -1) → (b = -1 ∨ b = L) ∨ (0 ≤ b ∧ b < L) := by
      intro L a b h1 h2; omega
    have X : ∀ a, (a = i + 1 ∨ a = i + -1) → _ := fun a ha => f (phi q) a j k (Or.inl ⟨or_assoc.1 (next hi ha), hj, hk⟩)
    have Y : ∀ a, (a = j + 1 ∨ a = j + -1) → _ := fun a ha => f (phi q) i a k
      ((next hj ha).elim (fun h => .inr (.inl ⟨hi, h, hk⟩)) fun h => .inl ⟨.inr (.inr hi), h, hk⟩)
    have Z : ∀ a, (a = k + 1 ∨ a = k + -1) → _ := fun a ha => f (phi q) i j a
      ((next hk ha).elim (fun h => .inr (.inr ⟨hi, hj, h⟩)) fun h => .inl ⟨.inr (.inr hi), hj, h⟩)
    rw [diff_seven, diff_seven, X _ (.inl rfl), X _ (.inr rfl), f _ i j k (.inl ⟨.inr (.inr hi), hj, hk⟩), Y _ (.inl rfl), Y _ (.inr rfl),
      Z _ (.inl rfl), Z _ (.inr rfl)]
  have v : ∀ q, Boundary.fillFaces3 (box3 N M K) (fun _ => true) coef dx dy dz (phi q) i j k = near3 N M K (phi q) i j k :=
    fun q => f _ i j k (.inl ⟨.inr (.inr hi), hj, hk⟩)
  simp only [rateMulti3, frameTerm, d, v]

/-- The cells of a box as arguments. -/
def cells3 (N M K : ℕ) (hN : 0 < N) (hM : 0 < M) (hK : 0 < K) (y : Fin (n + 1) × Fin N × Fin M × Fin K → ℝ) : Fin (n + 1) → Field3 :=
  fun p i j k => y (p, ⟨(nearest N i).toNat, by have := nearest_mem hN i; omega⟩, ⟨(nearest M j).toNat, by have := nearest_mem hM j; omega⟩,
    ⟨(nearest K k).toNat, by have := nearest_mem hK k; omega⟩)

variable (n) in
/-- The rates of the cells between the walls. -/
noncomputable def wallRates3 (eps gamma m dx dy dz : ℝ) (N M K : ℕ) (hN : 0 < N) (hM : 0 < M) (hK : 0 < K) (mob : Field3)
    (y : Fin (n + 1) × Fin N × Fin M × Fin K → ℝ) : Fin (n + 1) × Fin N × Fin M × Fin K → ℝ := fun q =>
  rateMulti3 n .fixed eps gamma m dx dy dz mob (fun _ _ _ => .none) (cells3 N M K hN hM hK y) q.1 (q.2.1 : ℕ) (q.2.2.1 : ℕ) (q.2.2.2 : ℕ)

theorem wallRates3_smooth (eps gamma m dx dy dz : ℝ) (hN : 0 < N) (hM : 0 < M) (hK : 0 < K) (mob : Field3) :
    LocallyLipschitz (wallRates3 n eps gamma m dx dy dz N M K hN hM hK mob) := by
  refine ContDiff.locallyLipschitz (𝕂 := ℝ) ?_
  refine contDiff_pi.2 fun q => ?_
  simp only [wallRates3, rateMulti3, cellRateM, multiWell, drive, frameTerm, div3, gradFlux3X, gradFlux3Y, gradFlux3Z, cells3, div_eq_mul_inv]
  fun_prop

/-- The values of a state in the box. -/
def read3 (N M K : ℕ) (phi : Fin (n + 1) → Field3) : Fin (n + 1) × Fin N × Fin M × Fin K → ℝ := fun q =>
  phi q.1 (q.2.1 : ℕ) (q.2.2.1 : ℕ) (q.2.2.2 : ℕ)

theorem cells_read3 (hN : 0 < N) (hM : 0 < M) (hK : 0 < K) (phi : Fin (n + 1) → Field3) :
    cells3 N M K hN hM hK (read3 N M K phi) = fun p => near3 N M K (phi p) := by
  funext p i j k
  have h1 := nearest_mem hN i
  have h2 := nearest_mem hM j
  have h3 := nearest_mem hK k
  simp only [cells3, read3, near3, Int.toNat_of_nonneg h1.1, Int.toNat_of_nonneg h2.1, Int.toNat_of_nonneg h3.1]

theorem near_cells3 (hN : 0 < N) (hM : 0 < M) (hK : 0 < K) (y : Fin (n + 1) × Fin N × Fin M × Fin K → ℝ) (p : Fin (n + 1)) :
    near3 N M K (cells3 N M K hN hM hK y p) = cells3 N M K hN hM hK y p := by
  funext i j k
  simp only [near3, cells3, nearest_inside (nearest_mem hN i), nearest_inside (nearest_mem hM j), nearest_inside (nearest_mem hK k)]

theorem read_cells3 (hN : 0 < N) (hM : 0 < M) (hK : 0 < K) (y : Fin (n + 1) × Fin N × Fin M × Fin K → ℝ) :
    read3 N M K (cells3 N M K hN hM hK y) = y := by
  funext q
  obtain ⟨p, a, b, c⟩ := q
  have h1 : nearest N ((a : ℕ) : ℤ) = (a : ℕ) := nearest_inside ⟨by omega, by have := a.2; omega⟩
  have h2 : nearest M ((b : ℕ) : ℤ) = (b : ℕ) := nearest_inside ⟨by omega, by have := b.2; omega⟩
  have h3 : nearest K ((c : ℕ) : ℤ) = (c : ℕ) := nearest_inside ⟨by omega, by have := c.2; omega⟩
  simp only [read3, cells3, h1, h2, h3, Int.toNat_natCast]

end AMPE.Walls
