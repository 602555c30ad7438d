import Verif.Proofs.Walls3
import Verif.Props.MeltHistory

/-!
# C159: a melt between insulating walls has exactly one history, which comes to rest
-/

namespace AMPE.MeltWalls.Props

open AMPE.Functions AMPE.Flux AMPE.PhaseRHS AMPE.PhaseRHS.Props AMPE.PhaseBounds AMPE.Thermal AMPE.Thermal.Props AMPE.MeltFlow
  AMPE.MeltFlow.Props AMPE.Rest AMPE.MeltRest.Props AMPE.MeltHistory.Props AMPE.Existence AMPE.Walls Filter Topology Set
open AMPE.Boundary (Side Side3 Coef fillDepth fillFaces3)
open AMPE.Boundary.Props (ZeroGradient boxOf)

/-! ## Specification -/

/-- A history of a melt in a box of `N × M` cells, from time 0 to time `τ`: phase and temperature of the cells start as given and move as the
code says when the program has filled the ghost cells around the box for the boundary conditions `cP` of the phase and `cT` of the
temperature. -/
structure WallHistory2 (kind : Kind) (N M : ℕ) (eps scale dx dy fa tm L cp D : ℝ) (mob : Field2) (cP cT : Side → Coef) (phi0 T0 : Field2) (τ : ℝ)
    (phi T : ℝ → Field2) : Prop where
  begins : ∀ i j : ℤ, 0 ≤ i → i < N → 0 ≤ j → j < M → phi 0 i j = phi0 i j ∧ T 0 i j = T0 i j
  moves : ∀ t, 0 ≤ t → t ≤ τ → ∃ v : Field2, ∀ i j : ℤ, 0 ≤ i → i < N → 0 ≤ j → j < M →
    phaseRate2 kind 'l' eps scale dx dy fa tm L mob (fillDepth (boxOf 0 0 N M) (fun _ => true) cT dx dy (T t))
      (fillDepth (boxOf 0 0 N M) (fun _ => true) cP dx dy (phi t)) i j = some (v i j) ∧
    HasDerivAt (fun s => phi s i j) (v i j) t ∧
    HasDerivAt (fun s => T s i j) (rhsTemp2 dx dy D L true (fillDepth (boxOf 0 0 N M) (fun _ => true) cT dx dy (T t)) (fun _ _ => cp) v i j) t

/-! ## Lemmas -/

section
variable {N M : ℕ}

theorem div_five (eps dx dy : ℝ) (u : Field2) (i j : ℤ) : div2 dx dy (gradFluxX eps dx u) (gradFluxY eps dy u) i j =
    eps ^ 2 * ((u (i + 1) j - 2 * u i j + u (i + -1) j) / dx / dx + (u i (j + 1) - 2 * u i j + u i (j + -1)) / dy / dy) := by
  simp only [div2, gradFluxX, gradFluxY, ← sub_eq_add_neg, add_sub_cancel_right]
  ring

theorem mirror_speed (hN : 0 < N) (hM : 0 < M) (kind : Kind) (eps scale dx dy tm L : ℝ) (mob T phi : Field2) (i j : ℤ) :
    speed2 kind eps scale dx dy tm L (mirror2 N M mob) (mirror2 N M T) (mirror2 N M phi) i j =
      speed2 kind eps scale dx dy tm L mob (near2 N M T) (near2 N M phi) (fold N i) (fold M j) := by
  have ei := nearest_inside (fold_mem hN i)
  have ej := nearest_inside (fold_mem hM j)
  rcases fold_next hN i with ⟨h1, h2⟩ | ⟨h1, h2⟩ <;> rcases fold_next hM j with ⟨h3, h4⟩ | ⟨h3, h4⟩ <;>
    simp only [speed2, netForce2, div_five, smooth2, sub_eq_add_neg i 1, sub_eq_add_neg j 1, sub_eq_add_neg (fold N i) 1,
      sub_eq_add_neg (fold M j) 1, mirror2, near2, h1, h2, h3, h4, ei, ej] <;> ring

theorem mirror_lap (hN : 0 < N) (hM : 0 < M) (dx dy D : ℝ) (u : Field2) (i j : ℤ) :
    laplacian2 dx dy D (mirror2 N M u) i j = laplacian2 dx dy D (near2 N M u) (fold N i) (fold M j) := by
  have ei := nearest_inside (fold_mem hN i)
  have ej := nearest_inside (fold_mem hM j)
  rcases fold_next hN i with ⟨h1, h2⟩ | ⟨h1, h2⟩ <;> rcases fold_next hM j with ⟨h3, h4⟩ | ⟨h3, h4⟩ <;>
    simp only [laplacian2, sub_eq_add_neg i 1, sub_eq_add_neg j 1, sub_eq_add_neg (fold N i) 1,
      sub_eq_add_neg (fold M j) 1, mirror2, near2, h1, h2, h3, h4, ei, ej] <;> ring

theorem fill_speed (hN : 0 < N) (hM : 0 < M) (cP cT : Side → Coef) (hP : ∀ s, ZeroGradient (cP s)) (hT : ∀ s, ZeroGradient (cT s))
    (kind : Kind) (eps scale dx dy tm L : ℝ) (mob T phi : Field2) (i j : ℤ) (hi : 0 ≤ i ∧ i < N) (hj : 0 ≤ j ∧ j < M) :
    speed2 kind eps scale dx dy tm L mob (fillDepth (boxOf 0 0 N M) (fun _ => true) cT dx dy T)
      (fillDepth (boxOf 0 0 N M) (fun _ => true) cP dx dy phi) i j = speed2 kind eps scale dx dy tm L mob (near2 N M T) (near2 N M phi) i j := by
  have f := fun a b ha hb => fill_near hN hM cP hP dx dy phi a b ha hb
  have g := fun a b ha hb => fill_near hN hM cT hT dx dy T a b ha hb
  simp only [speed2, netForce2, div_five, smooth2]
  rw [f i j (by omega) (by omega), f (i + 1) j (by omega) (by omega), f (i + -1) j (by omega) (by omega), f i (j + 1) (by omega) (by omega),
    f i (j + -1) (by omega) (by omega), g i j (by omega) (by omega), g (i + 1) j (by omega) (by omega), g (i - 1) j (by omega) (by omega),
    g i (j + 1) (by omega) (by omega), g i (j - 1) (by omega) (by omega)]

theorem fill_lap (hN : 0 < N) (hM : 0 < M) (cT : Side → Coef) (hT : ∀ s, ZeroGradient (cT s)) (dx dy D : ℝ) (T : Field2) (i j : ℤ)
    (hi : 0 ≤ i ∧ i < N) (hj : 0 ≤ j ∧ j < M) :
    laplacian2 dx dy D (fillDepth (boxOf 0 0 N M) (fun _ => true) cT dx dy T) i j = laplacian2 dx dy D (near2 N M T) i j := by
  have g := fun a b ha hb => fill_near hN hM cT hT dx dy T a b ha hb
  simp only [laplacian2]
  rw [g i j (by omega) (by omega), g (i + 1) j (by omega) (by omega), g (i - 1) j (by omega) (by omega),
    g i (j + 1) (by omega) (by omega), g i (j - 1) (by omega) (by omega)]

/-- The rates of the cells between the walls: phase (0) and temperature (1). -/
noncomputable def meltRates2 (kind : Kind) (eps scale dx dy tm L cp D : ℝ) (N M : ℕ) (hN : 0 < N) (hM : 0 < M) (mob : Field2)
    (y : Fin (1 + 1) × Fin N × Fin M → ℝ) : Fin (1 + 1) × Fin N × Fin M → ℝ := fun q =>
  if q.1 = 0 then speed2 kind eps scale dx dy tm L mob (cells2 N M hN hM y 1) (cells2 N M hN hM y 0) (q.2.1 : ℕ) (q.2.2 : ℕ)
  else laplacian2 dx dy D (cells2 N M hN hM y 1) (q.2.1 : ℕ) (q.2.2 : ℕ)
    + L / cp * speed2 kind eps scale dx dy tm L mob (cells2 N M hN hM y 1) (cells2 N M hN hM y 0) (q.2.1 : ℕ) (q.2.2 : ℕ)

theorem meltRates2_smooth (kind : Kind) (eps scale dx dy tm L cp D : ℝ) (hN : 0 < N) (hM : 0 < M) (mob : Field2) :
    LocallyLipschitz (meltRates2 kind eps scale dx dy tm L cp D N M hN hM mob) := by
  refine ContDiff.locallyLipschitz (𝕂 := ℝ) ?_
  refine contDiff_pi.2 fun q => ?_
  by_cases h : q.1 = 0 <;>
    simp only [meltRates2, h, if_true, if_false, speed2, netForce2, smooth2, laplacian2, div2, gradFluxX, gradFluxY, cells2, div_eq_mul_inv] <;>
    fun_prop

variable {kind : Kind} {eps scale dx dy fa tm L cp D : ℝ}

theorem mirror_follows (hN : 0 < N) (hM : 0 < M) (htm : 0 < tm) (mob : Field2) (y : ℝ → Fin (1 + 1) × Fin N × Fin M → ℝ) (t : ℝ)
    (h : ∀ q, HasDerivAt (fun s => y s q) (meltRates2 kind eps scale dx dy tm L cp D N M hN hM mob (y t) q) t) :
    Follows2 kind 'l' eps scale dx dy fa tm L cp D (mirror2 N M mob) (fun s => mirror2 N M (cells2 N M hN hM (y s) 0))
      (fun s => mirror2 N M (cells2 N M hN hM (y s) 1)) t := by
  have at_ : ∀ (p : Fin (1 + 1)) (i j : ℤ), HasDerivAt (fun s => mirror2 N M (cells2 N M hN hM (y s) p) i j)
      (meltRates2 kind eps scale dx dy tm L cp D N M hN hM mob (y t) (p, ⟨(fold N i).toNat, by have := fold_mem hN i; omega⟩,
        ⟨(fold M j).toNat, by have := fold_mem hM j; omega⟩)) t := by
    intro p i j
    have := h (p, ⟨(fold N i).toNat, by have := fold_mem hN i; omega⟩, ⟨(fold M j).toNat, by have := fold_mem hM j; omega⟩)
    simp only [mirror2, cells2, nearest_inside (fold_mem hN i), nearest_inside (fold_mem hM j)]
    exact this
  have sp : ∀ i j, speed2 kind eps scale dx dy tm L (mirror2 N M mob) (mirror2 N M (cells2 N M hN hM (y t) 1))
      (mirror2 N M (cells2 N M hN hM (y t) 0)) i j =
      speed2 kind eps scale dx dy tm L mob (cells2 N M hN hM (y t) 1) (cells2 N M hN hM (y t) 0) (fold N i) (fold M j) := fun i j => by
    rw [mirror_speed hN hM, near_cells, near_cells]
  refine ⟨speed2 kind eps scale dx dy tm L (mirror2 N M mob) (mirror2 N M (cells2 N M hN hM (y t) 1)) (mirror2 N M (cells2 N M hN hM (y t) 0)),
    fun i j => ?_, fun i j => rate_some kind eps scale dx dy fa tm L htm.ne' _ _ _ i j, fun i j => ?_⟩
  · have := at_ 0 i j
    simp only [meltRates2, if_true, Int.toNat_of_nonneg (fold_mem hN i).1, Int.toNat_of_nonneg (fold_mem hM j).1] at this
    rw [sp]
    exact this
  · have := at_ 1 i j
    simp only [meltRates2, one_ne_zero, if_false, Int.toNat_of_nonneg (fold_mem hN i).1, Int.toNat_of_nonneg (fold_mem hM j).1] at this
    simp only [rhsTemp2, if_true, sp, mirror_lap hN hM, near_cells]
    exact this

/-- Phase and temperature as one state. -/
def pair (phi T : Field2) : Fin (1 + 1) → Field2 := fun p => if p = 0 then phi else T

theorem to_system (hN : 0 < N) (hM : 0 < M) (htm : 0 < tm) {mob : Field2} {cP cT : Side → Coef} (hP : ∀ s, ZeroGradient (cP s))
    (hT : ∀ s, ZeroGradient (cT s)) {phi0 T0 : Field2} {τ : ℝ} {phi T : ℝ → Field2}
    (h : WallHistory2 kind N M eps scale dx dy fa tm L cp D mob cP cT phi0 T0 τ phi T) (t : ℝ) (ht : 0 ≤ t) (htτ : t ≤ τ)
    (q : Fin (1 + 1) × Fin N × Fin M) : HasDerivAt (fun s => read2 N M (pair (phi s) (T s)) q)
      (meltRates2 kind eps scale dx dy tm L cp D N M hN hM mob (read2 N M (pair (phi t) (T t))) q) t := by
  obtain ⟨p, a, b⟩ := q
  have ha : (0 : ℤ) ≤ (a : ℕ) ∧ ((a : ℕ) : ℤ) < N := ⟨by omega, by have := a.2; omega⟩
  have hb : (0 : ℤ) ≤ (b : ℕ) ∧ ((b : ℕ) : ℤ) < M := ⟨by omega, by have := b.2; omega⟩
  obtain ⟨v, hv⟩ := h.moves t ht htτ
  obtain ⟨h1, h2, h3⟩ := hv (a : ℕ) (b : ℕ) ha.1 ha.2 hb.1 hb.2
  have e : v (a : ℕ) (b : ℕ) = speed2 kind eps scale dx dy tm L mob (near2 N M (T t)) (near2 N M (phi t)) (a : ℕ) (b : ℕ) := by
    rw [← fill_speed hN hM cP cT hP hT kind eps scale dx dy tm L mob (T t) (phi t) _ _ ha hb]
    exact Option.some.inj (h1.symm.trans (rate_some kind eps scale dx dy fa tm L htm.ne' mob _ _ _ _))
  simp only [meltRates2, cells_read]
  by_cases hp : p = 0
  · subst hp
    simp only [read2, pair, if_true, one_ne_zero, if_false]
    rw [← e]
    exact h2
  · simp only [read2, pair, hp, if_true, one_ne_zero, if_false]
    simp only [rhsTemp2, if_true, fill_lap hN hM cT hT dx dy D _ _ _ ha hb] at h3
    rw [← e]
    exact h3

end

/-! ## C159, 2D -/

/-- **C159** (2D): between walls that let nothing through there is a history of phase and temperature for all times from every state. -/
theorem c159_exists (kind : Kind) (N M : ℕ) (hN : 0 < N) (hM : 0 < M) (eps scale dx dy fa tm L cp D : ℝ) (hs : 0 < scale) (htm : 0 < tm)
    (hcp : 0 < cp) (hD : 0 ≤ D) (mob : Field2) (hmob : ∀ i j : ℤ, 0 ≤ i → i < N → 0 ≤ j → j < M → 0 ≤ mob i j) (cP cT : Side → Coef)
    (hP : ∀ s, ZeroGradient (cP s)) (hT : ∀ s, ZeroGradient (cT s)) (phi0 T0 : Field2) :
    ∃ phi T, ∀ τ, WallHistory2 kind N M eps scale dx dy fa tm L cp D mob cP cT phi0 T0 τ phi T := by
  choose E hE using fun u => c108_defined eps scale dx dy 1 (2 * N) (2 * M) 0 0 u
  have hmob' : ∀ i j, 0 ≤ mirror2 N M mob i j := fun i j => hmob _ _ (fold_mem hN i).1 (fold_mem hN i).2 (fold_mem hM j).1 (fold_mem hM j).2
  set V : (Fin (1 + 1) × Fin N × Fin M → ℝ) → ℝ := fun x => E (mirror2 N M (cells2 N M hN hM x 0))
    + 1 * stored2 kind (2 * N) (2 * M) 0 0 cp tm (mirror2 N M (cells2 N M hN hM x 1)) with hV
  set x0 : Fin (1 + 1) × Fin N × Fin M → ℝ := read2 N M (pair phi0 T0) with hx0
  obtain ⟨y, y0, hy⟩ := exists_forever (meltRates2 kind eps scale dx dy tm L cp D N M hN hM mob)
    (meltRates2_smooth kind eps scale dx dy tm L cp D hN hM mob) V
    (fun y t h => c108_decay_partial kind (2 * N) (2 * M) 0 0 eps scale dx dy fa tm L cp D 1 (mirror2 N M mob)
      (fun s => mirror2 N M (cells2 N M hN hM (y s) 0)) (fun s => mirror2 N M (cells2 N M hN hM (y s) 1)) t
      htm hcp hD zero_le_one hmob' (fun s => mirror2_per _) (fun s => mirror2_per _) (mirror_follows (fa := fa) hN hM htm mob y t h)
      (fun s => E (mirror2 N M (cells2 N M hN hM (y s) 0))) fun s => hE _)
    x0 ((|V x0 / (16 * scale)| + 2) + (tm + 1 + |V x0 / (cp / (4 * tm))|))
    (fun x hx q => by
      have l := low2 (kind := kind) htm hcp (mirror2 N M (cells2 N M hN hM x 0)) (mirror2 N M (cells2 N M hN hM x 1)) (mirror2_per _)
        (mirror2_per _) _ (hE _)
      obtain ⟨p, a, b⟩ := q
      have ha : (0 : ℤ) ≤ (a : ℕ) ∧ ((a : ℕ) : ℤ) < N := ⟨by omega, by have := a.2; omega⟩
      have hb : (0 : ℤ) ≤ (b : ℕ) ∧ ((b : ℕ) : ℤ) < M := ⟨by omega, by have := b.2; omega⟩
      have bd := bound2 (show 0 < 2 * N by omega) (show 0 < 2 * M by omega) hs htm hcp (mirror2 N M (cells2 N M hN hM x 0))
        (mirror2 N M (cells2 N M hN hM x 1)) (mirror2_per _) (mirror2_per _) (V x0) (l.trans hx) (a : ℕ) (b : ℕ)
      have e : ∀ p, mirror2 N M (cells2 N M hN hM x p) (a : ℕ) (b : ℕ) = x (p, a, b) := by
        intro p
        simp only [mirror2, fold_inside ha, fold_inside hb]
        exact congrFun (read_cells hN hM x) (p, a, b)
      rw [e, e] at bd
      have n1 := abs_nonneg (V x0 / (16 * scale))
      have n2 := abs_nonneg (V x0 / (cp / (4 * tm)))
      have hp : p = 0 ∨ p = 1 := by fin_cases p <;> simp
      rcases hp with rfl | rfl
      · linarith [bd.1]
      · linarith [bd.2])
  refine ⟨fun s => cells2 N M hN hM (y s) 0, fun s => cells2 N M hN hM (y s) 1, fun τ => ⟨fun i j h1 h2 h3 h4 => ?_, fun t ht _ => ?_⟩⟩
  · simp only [y0, hx0, cells_read, near2, nearest_inside ⟨h1, h2⟩, nearest_inside ⟨h3, h4⟩, pair, if_true, one_ne_zero, if_false, and_self]
  · obtain ⟨v, hv, hr, hTd⟩ := mirror_follows (fa := fa) hN hM htm mob y t (hy t ht)
    refine ⟨v, fun i j h1 h2 h3 h4 => ?_⟩
    have hi := hv i j
    have hr := hr i j
    have hTd := hTd i j
    have fi := fold_inside (N := N) ⟨h1, h2⟩
    have fj := fold_inside (N := M) ⟨h3, h4⟩
    have ev : v i j = speed2 kind eps scale dx dy tm L mob (cells2 N M hN hM (y t) 1) (cells2 N M hN hM (y t) 0) i j := by
      have := Option.some.inj (hr.symm.trans (rate_some kind eps scale dx dy fa tm L htm.ne' _ _ _ i j))
      rw [this]
      have m := mirror_speed hN hM kind eps scale dx dy tm L mob (cells2 N M hN hM (y t) 1) (cells2 N M hN hM (y t) 0) i j
      rw [near_cells, near_cells, fi, fj] at m
      exact m
    refine ⟨?_, ?_, ?_⟩
    · rw [rate_some kind eps scale dx dy fa tm L htm.ne']
      have := fill_speed hN hM cP cT hP hT kind eps scale dx dy tm L mob (cells2 N M hN hM (y t) 1) (cells2 N M hN hM (y t) 0) i j
        ⟨h1, h2⟩ ⟨h3, h4⟩
      rw [near_cells, near_cells, ← ev] at this
      rw [← this]
      rfl
    · simpa only [mirror2, fi, fj] using hi
    · simp only [rhsTemp2, if_true, mirror_lap hN hM, near_cells, fi, fj] at hTd
      simp only [rhsTemp2, if_true, fill_lap hN hM cT hT dx dy D _ _ _ ⟨h1, h2⟩ ⟨h3, h4⟩, near_cells]
      simpa only [mirror2, fi, fj] using hTd

/-- **C159** (2D): and only one. -/
theorem c159_unique (kind : Kind) (N M : ℕ) (hN : 0 < N) (hM : 0 < M) (eps scale dx dy fa tm L cp D : ℝ) (htm : 0 < tm) (mob : Field2)
    (cP cT : Side → Coef) (hP : ∀ s, ZeroGradient (cP s)) (hT : ∀ s, ZeroGradient (cT s)) (phi0 T0 : Field2) (τ : ℝ)
    (phi T phi' T' : ℝ → Field2) (h : WallHistory2 kind N M eps scale dx dy fa tm L cp D mob cP cT phi0 T0 τ phi T)
    (h' : WallHistory2 kind N M eps scale dx dy fa tm L cp D mob cP cT phi0 T0 τ phi' T') (t : ℝ) (ht : 0 ≤ t) (htτ : t ≤ τ) (i j : ℤ)
    (hi : 0 ≤ i ∧ i < N) (hj : 0 ≤ j ∧ j < M) : phi' t i j = phi t i j ∧ T' t i j = T t i j := by
  have s0 : ∀ {φ θ : ℝ → Field2}, WallHistory2 kind N M eps scale dx dy fa tm L cp D mob cP cT phi0 T0 τ φ θ →
      read2 N M (pair (φ 0) (θ 0)) = read2 N M (pair phi0 T0) := by
    intro φ θ h
    funext ⟨p, a, b⟩
    have := h.begins (a : ℕ) (b : ℕ) (by omega) (by have := a.2; omega) (by omega) (by have := b.2; omega)
    by_cases hp : p = 0
    · simp only [read2, pair, hp, if_true, this.1]
    · simp only [read2, pair, hp, if_false, this.2]
  have := unique_of _ (meltRates2_smooth kind eps scale dx dy tm L cp D hN hM mob) τ (fun s => read2 N M (pair (phi' s) (T' s)))
    (fun s => read2 N M (pair (phi s) (T s))) (fun s hs q => to_system hN hM htm hP hT h' s hs.1 hs.2 q)
    (fun s hs q => to_system hN hM htm hP hT h s hs.1 hs.2 q) ((s0 h').trans (s0 h).symm) t ⟨ht, htτ⟩
  have e0 := congrFun this (0, ⟨i.toNat, by omega⟩, ⟨j.toNat, by omega⟩)
  have e1 := congrFun this (1, ⟨i.toNat, by omega⟩, ⟨j.toNat, by omega⟩)
  simp only [read2, pair, if_true, one_ne_zero, if_false, Int.toNat_of_nonneg hi.1, Int.toNat_of_nonneg hj.1] at e0 e1
  exact ⟨e0, e1⟩

/-- **C159** (2D): with positive mobilities and conductivity all cells come to rest, and neighbours in the box get the same temperature. -/
theorem c159_rests (kind : Kind) (N M : ℕ) (hN : 0 < N) (hM : 0 < M) (eps scale dx dy fa tm L cp D : ℝ) (hx : dx ≠ 0) (hy : dy ≠ 0)
    (hs : 0 < scale) (htm : 0 < tm) (hcp : 0 < cp) (hD : 0 < D) (mob : Field2)
    (hmob : ∀ i j : ℤ, 0 ≤ i → i < N → 0 ≤ j → j < M → 0 < mob i j) (cP cT : Side → Coef) (hP : ∀ s, ZeroGradient (cP s))
    (hT : ∀ s, ZeroGradient (cT s)) (phi0 T0 : Field2) (phi T : ℝ → Field2)
    (h : ∀ τ, WallHistory2 kind N M eps scale dx dy fa tm L cp D mob cP cT phi0 T0 τ phi T) (i j : ℤ) (hi : 0 ≤ i ∧ i < N) (hj : 0 ≤ j ∧ j < M) :
    Tendsto (fun t => deriv (fun s => phi s i j) t) atTop (𝓝 0) ∧ Tendsto (fun t => deriv (fun s => T s i j) t) atTop (𝓝 0) ∧
      (i + 1 < N → Tendsto (fun t => T t (i + 1) j - T t i j) atTop (𝓝 0)) ∧
      (j + 1 < M → Tendsto (fun t => T t i (j + 1) - T t i j) atTop (𝓝 0)) := by
  have mv := fun t ht => mirror_follows (fa := fa) hN hM htm mob (fun s => read2 N M (pair (phi s) (T s))) t
    (fun q => to_system hN hM htm hP hT (h t) t ht le_rfl q)
  have r := c158_rests kind (2 * N) (2 * M) (by omega) (by omega) eps scale dx dy fa tm L cp D hx hy hs htm hcp hD (mirror2 N M mob) (mirror2_per _)
    (fun i j => hmob _ _ (fold_mem hN i).1 (fold_mem hN i).2 (fold_mem hM j).1 (fold_mem hM j).2) _ _ _ _
    (fun τ => ⟨rfl, rfl, fun s => mirror2_per _, fun s => mirror2_per _, fun t ht _ => mv t ht⟩) i j
  have e0 : ∀ s (a b : ℤ), 0 ≤ a ∧ a < N → 0 ≤ b ∧ b < M → mirror2 N M (cells2 N M hN hM (read2 N M (pair (phi s) (T s))) 0) a b = phi s a b := by
    intro s a b ha hb
    simp only [cells_read, mirror2, near2, fold_inside ha, fold_inside hb, nearest_inside ha, nearest_inside hb, pair, if_true]
  have e1 : ∀ s (a b : ℤ), 0 ≤ a ∧ a < N → 0 ≤ b ∧ b < M → mirror2 N M (cells2 N M hN hM (read2 N M (pair (phi s) (T s))) 1) a b = T s a b := by
    intro s a b ha hb
    simp only [cells_read, mirror2, near2, fold_inside ha, fold_inside hb, nearest_inside ha, nearest_inside hb, pair, one_ne_zero, if_false]
  simp only [e0 _ i j hi hj, e1 _ i j hi hj] at r
  refine ⟨r.1, r.2.1, fun h1 => ?_, fun h1 => ?_⟩
  · have := r.2.2.1
    simpa only [e1 _ (i + 1) j ⟨by omega, h1⟩ hj] using this
  · have := r.2.2.2
    simpa only [e1 _ i (j + 1) hi ⟨by omega, h1⟩] using this

/-- A hot melt above a cold solid in four times three cells between walls. -/
example : ∃ phi T, ∀ τ, WallHistory2 .temperature 4 3 0.1 1 0.1 0.2 0 1000 2 1 0.5 (fun _ _ => 1) (fun _ => ⟨0, 1, 0⟩) (fun _ => ⟨0, 2, 0⟩)
    (fun _ j => if j = 0 then 1 else 0) (fun _ j => 900 + 100 * j) τ phi T :=
  c159_exists .temperature 4 3 (by norm_num) (by norm_num) _ _ _ _ _ _ _ _ _ one_pos (by norm_num) one_pos (by norm_num) _
    (fun _ _ _ _ _ _ => zero_le_one) _ _ (fun _ => ⟨rfl, one_ne_zero, rfl⟩) (fun _ => ⟨rfl, two_ne_zero, rfl⟩) _ _

end AMPE.MeltWalls.Props
