import Verif.Proofs.Walls
import Verif.Proofs.Walls3
import Verif.Props.GrainExist

/-!
# C155: a grain structure between walls has exactly one history, which comes to rest
-/

namespace AMPE.GrainWalls.Props

open AMPE.Functions AMPE.Flux AMPE.PhaseRHS AMPE.PhaseRHS.Props AMPE.PhaseBounds AMPE.MultiBounds AMPE.GrainFlow AMPE.GrainFlow.Props
  AMPE.MeltFlow AMPE.Rest AMPE.GrainRest AMPE.GrainRest.Props AMPE.Existence AMPE.GrainSystem AMPE.GrainExist.Props AMPE.Walls Filter Topology Set
open AMPE.Boundary (Side Side3 Coef fillDepth fillFaces3)
open AMPE.Boundary.Props (ZeroGradient boxOf)

/-! ## Specification -/

/-- A history of a grain structure without driving force in a box of `N × M` cells, from time 0 to time `T`: it starts with `start` and the
cells of the box move as the code says when the program has filled the ghost cells around the box for the boundary conditions `coef`. -/
structure WallHistory2 (n : ℕ) (st : Stencil) (eps gamma m dx dy : ℝ) (N M : ℕ) (mob : Field2) (coef : Side → Coef)
    (start : Fin (n + 1) → Field2) (T : ℝ) (phi : ℝ → Fin (n + 1) → Field2) : Prop where
  begins : ∀ p (i j : ℤ), 0 ≤ i → i < N → 0 ≤ j → j < M → phi 0 p i j = start p i j
  moves : ∀ t, 0 ≤ t → t ≤ T → ∀ p (i j : ℤ), 0 ≤ i → i < N → 0 ≤ j → j < M →
    HasDerivAt (fun s => phi s p i j) (rateMulti2 n st .fixed eps gamma m dx dy mob (fun _ _ => .none)
      (fun q => fillDepth (boxOf 0 0 N M) (fun _ => true) coef dx dy (phi t q)) p i j) t

/-- The same in 3D. -/
structure WallHistory3 (n : ℕ) (eps gamma m dx dy dz : ℝ) (N M K : ℕ) (mob : Field3) (coef : Side3 → Coef)
    (start : Fin (n + 1) → Field3) (T : ℝ) (phi : ℝ → Fin (n + 1) → Field3) : Prop where
  begins : ∀ p (i j k : ℤ), 0 ≤ i → i < N → 0 ≤ j → j < M → 0 ≤ k → k < K → phi 0 p i j k = start p i j k
  moves : ∀ t, 0 ≤ t → t ≤ T → ∀ p (i j k : ℤ), 0 ≤ i → i < N → 0 ≤ j → j < M → 0 ≤ k → k < K →
    HasDerivAt (fun s => phi s p i j k) (rateMulti3 n .fixed eps gamma m dx dy dz mob (fun _ _ _ => .none)
      (fun q => fillFaces3 ⟨0, N - 1, 0, M - 1, 0, K - 1⟩ (fun _ => true) coef dx dy dz (phi t q)) p i j k) t

/-! ## Lemmas -/

section
variable {n : ℕ} {st : Stencil} {eps gamma m dx dy : ℝ} {N M : ℕ}

theorem mirror_moves (hN : 0 < N) (hM : 0 < M) (mob : Field2) (y : ℝ → Fin (n + 1) × Fin N × Fin M → ℝ) (t : ℝ)
    (h : ∀ q, HasDerivAt (fun s => y s q) (wallRates2 n st eps gamma m dx dy N M hN hM mob (y t) q) t) :
    Moves2 n st eps gamma m dx dy (2 * N) (2 * M) (fun _ => mirror2 N M mob) (fun _ _ => .none)
      (fun s p => mirror2 N M (cells2 N M hN hM (y s) p)) t where
  per := fun s p => mirror2_per _
  ok := fun i j => trivial
  moves := fun p i j => by
    have mi := fold_mem hN i
    have mj := fold_mem hM j
    have hq := h (p, ⟨(nearest N (fold N i)).toNat, by have := nearest_mem hN (fold N i); omega⟩,
      ⟨(nearest M (fold M j)).toNat, by have := nearest_mem hM (fold M j); omega⟩)
    have e := mirror_rate n hN hM st eps gamma m dx dy mob (cells2 N M hN hM (y t)) p i j
    simp only [near_cells] at e
    rw [e]
    unfold wallRates2 at hq
    simp only [nearest_inside mi, nearest_inside mj, Int.toNat_of_nonneg mi.1, Int.toNat_of_nonneg mj.1] at hq
    simp only [mirror2, cells2, nearest_inside mi, nearest_inside mj]
    exact hq

theorem to_system (hN : 0 < N) (hM : 0 < M) {mob : Field2} {coef : Side → Coef} (hc : ∀ s, ZeroGradient (coef s))
    {start : Fin (n + 1) → Field2} {T : ℝ} {phi : ℝ → Fin (n + 1) → Field2}
    (h : WallHistory2 n st eps gamma m dx dy N M mob coef start T phi) (t : ℝ) (ht : 0 ≤ t) (htT : t ≤ T) (q : Fin (n + 1) × Fin N × Fin M) :
    HasDerivAt (fun s => read2 N M (phi s) q) (wallRates2 n st eps gamma m dx dy N M hN hM mob (read2 N M (phi t)) q) t := by
  obtain ⟨p, a, b⟩ := q
  have ha : (0 : ℤ) ≤ (a : ℕ) ∧ ((a : ℕ) : ℤ) < N := ⟨by omega, by have := a.2; omega⟩
  have hb : (0 : ℤ) ≤ (b : ℕ) ∧ ((b : ℕ) : ℤ) < M := ⟨by omega, by have := b.2; omega⟩
  have := h.moves t ht htT p (a : ℕ) (b : ℕ) ha.1 ha.2 hb.1 hb.2
  rw [fill_rate hN hM coef hc st eps gamma m dx dy mob (phi t) p _ _ ha hb] at this
  unfold wallRates2
  rw [cells_read]
  exact this

theorem of_system (hN : 0 < N) (hM : 0 < M) {mob : Field2} {coef : Side → Coef} (hc : ∀ s, ZeroGradient (coef s))
    {y : ℝ → Fin (n + 1) × Fin N × Fin M → ℝ} {t : ℝ}
    (h : ∀ q, HasDerivAt (fun s => y s q) (wallRates2 n st eps gamma m dx dy N M hN hM mob (y t) q) t) (p : Fin (n + 1)) (i j : ℤ)
    (hi : 0 ≤ i ∧ i < N) (hj : 0 ≤ j ∧ j < M) :
    HasDerivAt (fun s => cells2 N M hN hM (y s) p i j) (rateMulti2 n st .fixed eps gamma m dx dy mob (fun _ _ => .none)
      (fun q => fillDepth (boxOf 0 0 N M) (fun _ => true) coef dx dy (cells2 N M hN hM (y t) q)) p i j) t := by
  rw [fill_rate hN hM coef hc st eps gamma m dx dy mob _ p _ _ hi hj]
  simp only [near_cells]
  have := (mirror_moves hN hM mob y t h).moves p i j
  have e := mirror_rate n hN hM st eps gamma m dx dy mob (cells2 N M hN hM (y t)) p i j
  simp only [near_cells] at e
  rw [e, fold_inside hi, fold_inside hj] at this
  simpa only [mirror2, fold_inside hi, fold_inside hj] using this

end

/-! ## C155, 2D -/

/-- **C155** (2D): between walls without flux there is a history for all times from every state. -/
theorem c155_exists (n : ℕ) (st : Stencil) (eps gamma m dx dy : ℝ) (N M : ℕ) (hN : 0 < N) (hM : 0 < M) (hg : 0 ≤ gamma) (hm : 0 < m)
    (mob : Field2) (hmob : ∀ (i j : ℤ), 0 ≤ i → i < N → 0 ≤ j → j < M → 0 ≤ mob i j) (coef : Side → Coef) (hc : ∀ s, ZeroGradient (coef s))
    (start : Fin (n + 1) → Field2) : ∃ phi, ∀ T, WallHistory2 n st eps gamma m dx dy N M mob coef start T phi := by
  set V : (Fin (n + 1) × Fin N × Fin M → ℝ) → ℝ := fun x =>
    grainEnergy2 n st eps gamma m dx dy 1 (2 * N) (2 * M) 0 0 (fun _ _ => .none) (fun p => mirror2 N M (cells2 N M hN hM x p)) with hV
  have fall : ∀ (y : ℝ → Fin (n + 1) × Fin N × Fin M → ℝ) t,
      (∀ q, HasDerivAt (fun s => y s q) (wallRates2 n st eps gamma m dx dy N M hN hM mob (y t) q) t) →
      ∃ d ≤ 0, HasDerivAt (fun s => V (y s)) d t := by
    intro y t h
    have b := c139_balance n st eps gamma m dx dy 1 (2 * N) (2 * M) 0 0 _ _ _ t (mirror_moves hN hM mob y t h)
    refine ⟨_, neg_nonpos.2 (S2_nonneg fun i j => ?_), b⟩
    have mi := fold_mem hN i
    have mj := fold_mem hM j
    exact mul_nonneg zero_le_one (mul_nonneg (hmob _ _ mi.1 mi.2 mj.1 mj.2) (Finset.sum_nonneg fun p _ => sq_nonneg _))
  obtain ⟨y, y0, hy⟩ := exists_forever (wallRates2 n st eps gamma m dx dy N M hN hM mob) (wallRates2_smooth st eps gamma m dx dy hN hM mob)
    V fall (read2 N M start) (3 + 4 * (V (read2 N M start)
      + S2 (2 * N) (2 * M) 0 0 fun _ _ => ((n + 1 : ℕ) : ℝ) * (m * (1 / 4 + gamma / 6))) / m)
    (fun x hx q => by
      obtain ⟨p, a, b⟩ := q
      have ha : (0 : ℤ) ≤ (a : ℕ) ∧ ((a : ℕ) : ℤ) < N := ⟨by omega, by have := a.2; omega⟩
      have hb : (0 : ℤ) ≤ (b : ℕ) ∧ ((b : ℕ) : ℤ) < M := ⟨by omega, by have := b.2; omega⟩
      have l := low2 (st := st) (eps := eps) (dx := dx) (dy := dy) hg hm (show 0 < 2 * N by omega) (show 0 < 2 * M by omega)
        (fun p => mirror2 N M (cells2 N M hN hM x p)) (fun p => mirror2_per _) p (a : ℕ) (b : ℕ)
      have e : mirror2 N M (cells2 N M hN hM x p) (a : ℕ) (b : ℕ) = x (p, a, b) := by
        simp only [mirror2, fold_inside ha, fold_inside hb]
        exact congrFun (read_cells hN hM x) (p, a, b)
      rw [e] at l
      refine l.trans ?_
      have hx' : grainEnergy2 n st eps gamma m dx dy 1 (2 * N) (2 * M) 0 0 (fun _ _ => .none) (fun p => mirror2 N M (cells2 N M hN hM x p))
        ≤ V (read2 N M start) := hx
      generalize grainEnergy2 n st eps gamma m dx dy 1 (2 * N) (2 * M) 0 0 (fun _ _ => .none)
        (fun p => mirror2 N M (cells2 N M hN hM x p)) = u at hx' ⊢
      generalize V (read2 N M start) = v at hx' ⊢
      gcongr)
  refine ⟨fun s => cells2 N M hN hM (y s), fun T => ⟨fun p i j h1 h2 h3 h4 => ?_, fun t ht _ p i j h1 h2 h3 h4 =>
    of_system hN hM hc (hy t ht) p i j ⟨h1, h2⟩ ⟨h3, h4⟩⟩⟩
  simp only [y0, cells_read, near2, nearest_inside ⟨h1, h2⟩, nearest_inside ⟨h3, h4⟩]

/-- **C155** (2D): and only one. -/
theorem c155_unique (n : ℕ) (st : Stencil) (eps gamma m dx dy : ℝ) (N M : ℕ) (hN : 0 < N) (hM : 0 < M)
    (mob : Field2) (coef : Side → Coef) (hc : ∀ s, ZeroGradient (coef s)) (start : Fin (n + 1) → Field2) (T : ℝ)
    (phi psi : ℝ → Fin (n + 1) → Field2) (h1 : WallHistory2 n st eps gamma m dx dy N M mob coef start T phi)
    (h2 : WallHistory2 n st eps gamma m dx dy N M mob coef start T psi) (t : ℝ) (ht : 0 ≤ t) (htT : t ≤ T) (p : Fin (n + 1)) (i j : ℤ)
    (hi : 0 ≤ i ∧ i < N) (hj : 0 ≤ j ∧ j < M) : psi t p i j = phi t p i j := by
  have s0 : ∀ {ψ : ℝ → Fin (n + 1) → Field2}, WallHistory2 n st eps gamma m dx dy N M mob coef start T ψ → read2 N M (ψ 0) = read2 N M start := by
    intro ψ h
    funext ⟨p, a, b⟩
    exact h.begins p (a : ℕ) (b : ℕ) (by omega) (by have := a.2; omega) (by omega) (by have := b.2; omega)
  have := unique_of _ (wallRates2_smooth st eps gamma m dx dy hN hM mob) T (fun s => read2 N M (psi s)) (fun s => read2 N M (phi s))
    (fun s hs q => to_system hN hM hc h2 s hs.1 hs.2 q) (fun s hs q => to_system hN hM hc h1 s hs.1 hs.2 q) ((s0 h2).trans (s0 h1).symm) t ⟨ht, htT⟩
  have e := congrFun this (p, ⟨i.toNat, by omega⟩, ⟨j.toNat, by omega⟩)
  simpa only [read2, Int.toNat_of_nonneg hi.1, Int.toNat_of_nonneg hj.1] using e

/-- **C155** (2D): with positive mobilities it comes to rest. -/
theorem c155_rests (n : ℕ) (st : Stencil) (eps gamma m dx dy : ℝ) (N M : ℕ) (hN : 0 < N) (hM : 0 < M) (hg : 0 ≤ gamma) (hm : 0 < m)
    (mob : Field2) (hmob : ∀ (i j : ℤ), 0 ≤ i → i < N → 0 ≤ j → j < M → 0 < mob i j) (coef : Side → Coef) (hc : ∀ s, ZeroGradient (coef s))
    (start : Fin (n + 1) → Field2) (phi : ℝ → Fin (n + 1) → Field2)
    (h : ∀ T, WallHistory2 n st eps gamma m dx dy N M mob coef start T phi) (p : Fin (n + 1)) (i j : ℤ) (hi : 0 ≤ i ∧ i < N) (hj : 0 ≤ j ∧ j < M) :
    Tendsto (fun t => deriv (fun s => phi s p i j) t) atTop (𝓝 0) := by
  have mv := fun t ht => mirror_moves hN hM mob (fun s => read2 N M (phi s)) t (fun q => to_system hN hM hc (h t) t ht le_rfl q)
  have r := c153_rests n st eps gamma m dx dy (2 * N) (2 * M) (by omega) (by omega) hg hm (mirror2 N M mob) (mirror2_per _)
    (fun i j => hmob _ _ (fold_mem hN i).1 (fold_mem hN i).2 (fold_mem hM j).1 (fold_mem hM j).2) _ _
    (fun T => ⟨rfl, fun s p => mirror2_per _, fun t ht _ => (mv t ht).moves⟩) p i j
  refine r.congr fun t => ?_
  have e : (fun s => mirror2 N M (cells2 N M hN hM (read2 N M (phi s)) p) i j) = fun s => phi s p i j := by
    funext s
    simp only [cells_read, mirror2, near2, fold_inside hi, fold_inside hj, nearest_inside hi, nearest_inside hj]
  rw [e]

/-- Three grains in four times three cells between walls. -/
example : ∃ phi, ∀ T, WallHistory2 2 .isotropic 0.1 1.5 1 0.1 0.2 4 3 (fun _ _ => 1) (fun _ => ⟨0, 1, 0⟩)
    (fun p i j => if (i + j) % 3 = (p : ℤ) then 1 else 0) T phi :=
  c155_exists 2 .isotropic _ _ _ _ _ 4 3 (by norm_num) (by norm_num) (by norm_num) (by norm_num) _ (fun _ _ _ _ _ _ => zero_le_one) _
    (fun _ => ⟨rfl, one_ne_zero, rfl⟩) _

/-! ## C155, 3D -/

section
variable {n : ℕ} {eps gamma m dx dy dz : ℝ} {N M K : ℕ}

theorem mirror_moves3 (hN : 0 < N) (hM : 0 < M) (hK : 0 < K) (mob : Field3) (y : ℝ → Fin (n + 1) × Fin N × Fin M × Fin K → ℝ) (t : ℝ)
    (h : ∀ q, HasDerivAt (fun s => y s q) (wallRates3 n eps gamma m dx dy dz N M K hN hM hK mob (y t) q) t) :
    Moves3 n eps gamma m dx dy dz (2 * N) (2 * M) (2 * K) (fun _ => mirror3 N M K mob) (fun _ _ _ => .none)
      (fun s p => mirror3 N M K (cells3 N M K hN hM hK (y s) p)) t where
  per := fun s p => mirror3_per _
  ok := fun i j k => trivial
  moves := fun p i j k => by
    have mi := fold_mem hN i
    have mj := fold_mem hM j
    have mk := fold_mem hK k
    have hq := h (p, ⟨(nearest N (fold N i)).toNat, by have := nearest_mem hN (fold N i); omega⟩,
      ⟨(nearest M (fold M j)).toNat, by have := nearest_mem hM (fold M j); omega⟩,
      ⟨(nearest K (fold K k)).toNat, by have := nearest_mem hK (fold K k); omega⟩)
    have e := mirror_rate3 n hN hM hK eps gamma m dx dy dz mob (cells3 N M K hN hM hK (y t)) p i j k
    simp only [near_cells3] at e
    rw [e]
    unfold wallRates3 at hq
    simp only [nearest_inside mi, nearest_inside mj, nearest_inside mk, Int.toNat_of_nonneg mi.1, Int.toNat_of_nonneg mj.1,
      Int.toNat_of_nonneg mk.1] at hq
    simp only [mirror3, cells3, nearest_inside mi, nearest_inside mj, nearest_inside mk]
    exact hq

theorem to_system3 (hN : 0 < N) (hM : 0 < M) (hK : 0 < K) {mob : Field3} {coef : Side3 → Coef} (hc : ∀ s, ZeroGradient (coef s))
    {start : Fin (n + 1) → Field3} {T : ℝ} {phi : ℝ → Fin (n + 1) → Field3}
    (h : WallHistory3 n eps gamma m dx dy dz N M K mob coef start T phi) (t : ℝ) (ht : 0 ≤ t) (htT : t ≤ T)
    (q : Fin (n + 1) × Fin N × Fin M × Fin K) :
    HasDerivAt (fun s => read3 N M K (phi s) q) (wallRates3 n eps gamma m dx dy dz N M K hN hM hK mob (read3 N M K (phi t)) q) t := by
  obtain ⟨p, a, b, c⟩ := q
  have ha : (0 : ℤ) ≤ (a : ℕ) ∧ ((a : ℕ) : ℤ) < N := ⟨by omega, by have := a.2; omega⟩
  have hb : (0 : ℤ) ≤ (b : ℕ) ∧ ((b : ℕ) : ℤ) < M := ⟨by omega, by have := b.2; omega⟩
  have hk : (0 : ℤ) ≤ (c : ℕ) ∧ ((c : ℕ) : ℤ) < K := ⟨by omega, by have := c.2; omega⟩
  have := h.moves t ht htT p (a : ℕ) (b : ℕ) (c : ℕ) ha.1 ha.2 hb.1 hb.2 hk.1 hk.2
  have e := fill_rate3 hN hM hK coef hc eps gamma m dx dy dz mob (phi t) p _ _ _ ha hb hk
  unfold box3 at e
  rw [e] at this
  unfold wallRates3
  rw [cells_read3]
  exact this

theorem of_system3 (hN : 0 < N) (hM : 0 < M) (hK : 0 < K) {mob : Field3} {coef : Side3 → Coef} (hc : ∀ s, ZeroGradient (coef s))
    {y : ℝ → Fin (n + 1) × Fin N × Fin M × Fin K → ℝ} {t : ℝ}
    (h : ∀ q, HasDerivAt (fun s => y s q) (wallRates3 n eps gamma m dx dy dz N M K hN hM hK mob (y t) q) t) (p : Fin (n + 1)) (i j k : ℤ)
    (hi : 0 ≤ i ∧ i < N) (hj : 0 ≤ j ∧ j < M) (hk : 0 ≤ k ∧ k < K) :
    HasDerivAt (fun s => cells3 N M K hN hM hK (y s) p i j k) (rateMulti3 n .fixed eps gamma m dx dy dz mob (fun _ _ _ => .none)
      (fun q => fillFaces3 (box3 N M K) (fun _ => true) coef dx dy dz (cells3 N M K hN hM hK (y t) q)) p i j k) t := by
  rw [fill_rate3 hN hM hK coef hc eps gamma m dx dy dz mob _ p _ _ _ hi hj hk]
  simp only [near_cells3]
  have := (mirror_moves3 hN hM hK mob y t h).moves p i j k
  have e := mirror_rate3 n hN hM hK eps gamma m dx dy dz mob (cells3 N M K hN hM hK (y t)) p i j k
  simp only [near_cells3] at e
  rw [e, fold_inside hi, fold_inside hj, fold_inside hk] at this
  simpa only [mirror3, fold_inside hi, fold_inside hj, fold_inside hk] using this

end

/-- **C155** (3D): between walls without flux there is a history for all times from every state. -/
theorem c155_exists3 (n : ℕ) (eps gamma m dx dy dz : ℝ) (N M K : ℕ) (hN : 0 < N) (hM : 0 < M) (hK : 0 < K) (hg : 0 ≤ gamma) (hm : 0 < m)
    (mob : Field3) (hmob : ∀ (i j k : ℤ), 0 ≤ i → i < N → 0 ≤ j → j < M → 0 ≤ k → k < K → 0 ≤ mob i j k) (coef : Side3 → Coef)
    (hc : ∀ s, ZeroGradient (coef s)) (start : Fin (n + 1) → Field3) :
    ∃ phi, ∀ T, WallHistory3 n eps gamma m dx dy dz N M K mob coef start T phi := by
  set V : (Fin (n + 1) × Fin N × Fin M × Fin K → ℝ) → ℝ := fun x =>
    grainEnergy3 n eps gamma m dx dy dz 1 (2 * N) (2 * M) (2 * K) 0 0 0 (fun _ _ _ => .none) (fun p => mirror3 N M K (cells3 N M K hN hM hK x p))
    with hV
  have fall : ∀ (y : ℝ → Fin (n + 1) × Fin N × Fin M × Fin K → ℝ) t,
      (∀ q, HasDerivAt (fun s => y s q) (wallRates3 n eps gamma m dx dy dz N M K hN hM hK mob (y t) q) t) →
      ∃ d ≤ 0, HasDerivAt (fun s => V (y s)) d t := by
    intro y t h
    have b := c139_balance_3d n eps gamma m dx dy dz 1 (2 * N) (2 * M) (2 * K) 0 0 0 _ _ _ t (mirror_moves3 hN hM hK mob y t h)
    refine ⟨_, neg_nonpos.2 (S3_nonneg fun i j k => ?_), b⟩
    have mi := fold_mem hN i
    have mj := fold_mem hM j
    have mk := fold_mem hK k
    exact mul_nonneg zero_le_one (mul_nonneg (hmob _ _ _ mi.1 mi.2 mj.1 mj.2 mk.1 mk.2) (Finset.sum_nonneg fun p _ => sq_nonneg _))
  obtain ⟨y, y0, hy⟩ := exists_forever (wallRates3 n eps gamma m dx dy dz N M K hN hM hK mob)
    (wallRates3_smooth eps gamma m dx dy dz hN hM hK mob) V fall (read3 N M K start) (3 + 4 * (V (read3 N M K start)
      + S3 (2 * N) (2 * M) (2 * K) 0 0 0 fun _ _ _ => ((n + 1 : ℕ) : ℝ) * (m * (1 / 4 + gamma / 6))) / m)
    (fun x hx q => by
      obtain ⟨p, a, b, c⟩ := q
      have ha : (0 : ℤ) ≤ (a : ℕ) ∧ ((a : ℕ) : ℤ) < N := ⟨by omega, by have := a.2; omega⟩
      have hb : (0 : ℤ) ≤ (b : ℕ) ∧ ((b : ℕ) : ℤ) < M := ⟨by omega, by have := b.2; omega⟩
      have hk : (0 : ℤ) ≤ (c : ℕ) ∧ ((c : ℕ) : ℤ) < K := ⟨by omega, by have := c.2; omega⟩
      have l := low3 (eps := eps) (dx := dx) (dy := dy) (dz := dz) hg hm (show 0 < 2 * N by omega) (show 0 < 2 * M by omega)
        (show 0 < 2 * K by omega) (fun p => mirror3 N M K (cells3 N M K hN hM hK x p)) (fun p => mirror3_per _) p (a : ℕ) (b : ℕ) (c : ℕ)
      have e : mirror3 N M K (cells3 N M K hN hM hK x p) (a : ℕ) (b : ℕ) (c : ℕ) = x (p, a, b, c) := by
        simp only [mirror3, fold_inside ha, fold_inside hb, fold_inside hk]
        exact congrFun (read_cells3 hN hM hK x) (p, a, b, c)
      rw [e] at l
      refine l.trans ?_
      have hx' : grainEnergy3 n eps gamma m dx dy dz 1 (2 * N) (2 * M) (2 * K) 0 0 0 (fun _ _ _ => .none)
        (fun p => mirror3 N M K (cells3 N M K hN hM hK x p)) ≤ V (read3 N M K start) := hx
      generalize grainEnergy3 n eps gamma m dx dy dz 1 (2 * N) (2 * M) (2 * K) 0 0 0 (fun _ _ _ => .none)
        (fun p => mirror3 N M K (cells3 N M K hN hM hK x p)) = u at hx' ⊢
      generalize V (read3 N M K start) = v at hx' ⊢
      gcongr)
  refine ⟨fun s => cells3 N M K hN hM hK (y s), fun T => ⟨fun p i j k h1 h2 h3 h4 h5 h6 => ?_, fun t ht _ p i j k h1 h2 h3 h4 h5 h6 =>
    of_system3 hN hM hK hc (hy t ht) p i j k ⟨h1, h2⟩ ⟨h3, h4⟩ ⟨h5, h6⟩⟩⟩
  simp only [y0, cells_read3, near3, nearest_inside ⟨h1, h2⟩, nearest_inside ⟨h3, h4⟩, nearest_inside ⟨h5, h6⟩]

/-- **C155** (3D): and only one. -/
theorem c155_unique3 (n : ℕ) (eps gamma m dx dy dz : ℝ) (N M K : ℕ) (hN : 0 < N) (hM : 0 < M) (hK : 0 < K)
    (mob : Field3) (coef : Side3 → Coef) (hc : ∀ s, ZeroGradient (coef s)) (start : Fin (n + 1) → Field3) (T : ℝ)
    (phi psi : ℝ → Fin (n + 1) → Field3) (h1 : WallHistory3 n eps gamma m dx dy dz N M K mob coef start T phi)
    (h2 : WallHistory3 n eps gamma m dx dy dz N M K mob coef start T psi) (t : ℝ) (ht : 0 ≤ t) (htT : t ≤ T) (p : Fin (n + 1)) (i j k : ℤ)
    (hi : 0 ≤ i ∧ i < N) (hj : 0 ≤ j ∧ j < M) (hk : 0 ≤ k ∧ k < K) : psi t p i j k = phi t p i j k := by
  have s0 : ∀ {ψ : ℝ → Fin (n + 1) → Field3}, WallHistory3 n eps gamma m dx dy dz N M K mob coef start T ψ →
      read3 N M K (ψ 0) = read3 N M K start := by
    intro ψ h
    funext ⟨p, a, b, c⟩
    exact h.begins p (a : ℕ) (b : ℕ) (c : ℕ) (by omega) (by have := a.2; omega) (by omega) (by have := b.2; omega) (by omega)
      (by have := c.2; omega)
  have := unique_of _ (wallRates3_smooth eps gamma m dx dy dz hN hM hK mob) T (fun s => read3 N M K (psi s)) (fun s => read3 N M K (phi s))
    (fun s hs q => to_system3 hN hM hK hc h2 s hs.1 hs.2 q) (fun s hs q => to_system3 hN hM hK hc h1 s hs.1 hs.2 q) ((s0 h2).trans (s0 h1).symm)
    t ⟨ht, htT⟩
  have e := congrFun this (p, ⟨i.toNat, by omega⟩, ⟨j.toNat, by omega⟩, ⟨k.toNat, by omega⟩)
  simpa only [read3, Int.toNat_of_nonneg hi.1, Int.toNat_of_nonneg hj.1, Int.toNat_of_nonneg hk.1] using e

/-- **C155** (3D): with positive mobilities it comes to rest. -/
theorem c155_rests3 (n : ℕ) (eps gamma m dx dy dz : ℝ) (N M K : ℕ) (hN : 0 < N) (hM : 0 < M) (hK : 0 < K) (hg : 0 ≤ gamma) (hm : 0 < m)
    (mob : Field3) (hmob : ∀ (i j k : ℤ), 0 ≤ i → i < N → 0 ≤ j → j < M → 0 ≤ k → k < K → 0 < mob i j k) (coef : Side3 → Coef)
    (hc : ∀ s, ZeroGradient (coef s)) (start : Fin (n + 1) → Field3) (phi : ℝ → Fin (n + 1) → Field3)
    (h : ∀ T, WallHistory3 n eps gamma m dx dy dz N M K mob coef start T phi) (p : Fin (n + 1)) (i j k : ℤ) (hi : 0 ≤ i ∧ i < N)
    (hj : 0 ≤ j ∧ j < M) (hk : 0 ≤ k ∧ k < K) : Tendsto (fun t => deriv (fun s => phi s p i j k) t) atTop (𝓝 0) := by
  have mv := fun t ht => mirror_moves3 hN hM hK mob (fun s => read3 N M K (phi s)) t (fun q => to_system3 hN hM hK hc (h t) t ht le_rfl q)
  have r := c153_rests3 n eps gamma m dx dy dz (2 * N) (2 * M) (2 * K) (by omega) (by omega) (by omega) hg hm (mirror3 N M K mob) (mirror3_per _)
    (fun i j k => hmob _ _ _ (fold_mem hN i).1 (fold_mem hN i).2 (fold_mem hM j).1 (fold_mem hM j).2 (fold_mem hK k).1 (fold_mem hK k).2) _ _
    (fun T => ⟨rfl, fun s p => mirror3_per _, fun t ht _ => (mv t ht).moves⟩) p i j k
  refine r.congr fun t => ?_
  have e : (fun s => mirror3 N M K (cells3 N M K hN hM hK (read3 N M K (phi s)) p) i j k) = fun s => phi s p i j k := by
    funext s
    simp only [cells_read3, mirror3, near3, fold_inside hi, fold_inside hj, fold_inside hk, nearest_inside hi, nearest_inside hj,
      nearest_inside hk]
  rw [e]

/-- Two grains in three times two times two cells between walls. -/
example : ∃ phi, ∀ T, WallHistory3 1 0.1 1.5 1 0.1 0.2 0.1 3 2 2 (fun _ _ _ => 1) (fun _ => ⟨0, 1, 0⟩)
    (fun p i j k => if (i + j + k) % 2 = (p : ℤ) then 1 else 0) T phi :=
  c155_exists3 1 _ _ _ _ _ _ 3 2 2 (by norm_num) (by norm_num) (by norm_num) (by norm_num) (by norm_num) _
    (fun _ _ _ _ _ _ _ _ _ => zero_le_one) _ (fun _ => ⟨rfl, one_ne_zero, rfl⟩) _

end AMPE.GrainWalls.Props
