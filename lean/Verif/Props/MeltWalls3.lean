import Verif.Props.MeltWalls

/-!
# C159 in 3D
-/

namespace AMPE.MeltWalls.Props

open AMPE.Functions AMPE.Flux AMPE.PhaseRHS AMPE.PhaseRHS.Props AMPE.PhaseBounds AMPE.Thermal AMPE.Thermal.Props AMPE.MeltFlow
  AMPE.MeltFlow.Props AMPE.Rest AMPE.MeltRest.Props AMPE.MeltHistory.Props AMPE.Existence AMPE.Walls Filter Topology Set
open AMPE.Boundary (Side Side3 Coef fillDepth fillFaces3)
open AMPE.Boundary.Props (ZeroGradient boxOf)

/-! ## Specification -/

/-- A history of a melt in a box of `N × M × K` cells, from time 0 to time `τ`: phase and temperature of the cells start as given and move as the
code says when the program has filled the ghost cells around the box for the boundary conditions `cP` of the phase and `cT` of the
temperature. -/
structure WallHistory3 (kind : Kind) (N M K : ℕ) (eps scale dx dy dz fa tm L cp D : ℝ) (mob : Field3) (cP cT : Side3 → Coef) (phi0 T0 : Field3) (τ : ℝ)
    (phi T : ℝ → Field3) : Prop where
  begins : ∀ i j k : ℤ, 0 ≤ i → i < N → 0 ≤ j → j < M → 0 ≤ k → k < K → phi 0 i j k = phi0 i j k ∧ T 0 i j k = T0 i j k
  moves : ∀ t, 0 ≤ t → t ≤ τ → ∃ v : Field3, ∀ i j k : ℤ, 0 ≤ i → i < N → 0 ≤ j → j < M → 0 ≤ k → k < K →
    phaseRate3 kind 'l' eps scale dx dy dz fa tm L mob (fillFaces3 (box3 N M K) (fun _ => true) cT dx dy dz (T t))
      (fillFaces3 (box3 N M K) (fun _ => true) cP dx dy dz (phi t)) i j k = some (v i j k) ∧
    HasDerivAt (fun s => phi s i j k) (v i j k) t ∧
    HasDerivAt (fun s => T s i j k) (rhsTemp3 dx dy dz D L true (fillFaces3 (box3 N M K) (fun _ => true) cT dx dy dz (T t)) (fun _ _ _ => cp) v i j k) t

/-! ## Lemmas -/

section
variable {N M K : ℕ}

theorem mirror_speed3 (hN : 0 < N) (hM : 0 < M) (hK : 0 < K) (kind : Kind) (eps scale dx dy dz tm L : ℝ) (mob T phi : Field3) (i j k : ℤ) :
    speed3 kind eps scale dx dy dz tm L (mirror3 N M K mob) (mirror3 N M K T) (mirror3 N M K phi) i j k =
      speed3 kind eps scale dx dy dz tm L mob (near3 N M K T) (near3 N M K phi) (fold N i) (fold M j) (fold K k) := by
  have ei := nearest_inside (fold_mem hN i)
  have ej := nearest_inside (fold_mem hM j)
  have ek := nearest_inside (fold_mem hK k)
  rcases fold_next hN i with ⟨h1, h2⟩ | ⟨h1, h2⟩ <;> rcases fold_next hM j with ⟨h3, h4⟩ | ⟨h3, h4⟩ <;>
    rcases fold_next hK k with ⟨h5, h6⟩ | ⟨h5, h6⟩ <;>
    simp only [speed3, netForce3, diff_seven, smooth3, sub_eq_add_neg i 1, sub_eq_add_neg j 1, sub_eq_add_neg k 1, sub_eq_add_neg (fold N i) 1,
      sub_eq_add_neg (fold M j) 1, sub_eq_add_neg (fold K k) 1, mirror3, near3, h1, h2, h3, h4, h5, h6, ei, ej, ek] <;> ring

theorem mirror_lap3 (hN : 0 < N) (hM : 0 < M) (hK : 0 < K) (dx dy dz D : ℝ) (u : Field3) (i j k : ℤ) :
    laplacian3 dx dy dz D (mirror3 N M K u) i j k = laplacian3 dx dy dz D (near3 N M K u) (fold N i) (fold M j) (fold K k) := by
  have ei := nearest_inside (fold_mem hN i)
  have ej := nearest_inside (fold_mem hM j)
  have ek := nearest_inside (fold_mem hK k)
  rcases fold_next hN i with ⟨h1, h2⟩ | ⟨h1, h2⟩ <;> rcases fold_next hM j with ⟨h3, h4⟩ | ⟨h3, h4⟩ <;>
    rcases fold_next hK k with ⟨h5, h6⟩ | ⟨h5, h6⟩ <;>
    simp only [laplacian3, sub_eq_add_neg i 1, sub_eq_add_neg j 1, sub_eq_add_neg k 1, sub_eq_add_neg (fold N i) 1,
      sub_eq_add_neg (fold M j) 1, sub_eq_add_neg (fold K k) 1, mirror3, near3, h1, h2, h3, h4, h5, h6, ei, ej, ek] <;> ring

/-- A neighbour is in the row or next to its end. -/
theorem st {L : ℕ} {x y : ℤ} {P : Prop} (hx : 0 ≤ x ∧ x < L) (_ : 0 < L) (h1 : y = -1 ∨ y = L → P) (h2 : 0 ≤ y ∧ y < L → P)
    (hy : y = x + 1 ∨ y = x - 1) : P := by
  by_cases h : y = -1 ∨ y = L
  · exact h1 h
  · exact h2 (by omega)

theorem fill_speed3 (hN : 0 < N) (hM : 0 < M) (hK : 0 < K) (cP cT : Side3 → Coef) (hP : ∀ s, ZeroGradient (cP s)) (hT : ∀ s, ZeroGradient (cT s))
    (kind : Kind) (eps scale dx dy dz tm L : ℝ) (mob T phi : Field3) (i j k : ℤ) (hi : 0 ≤ i ∧ i < N) (hj : 0 ≤ j ∧ j < M) (hk : 0 ≤ k ∧ k < K) :
    speed3 kind eps scale dx dy dz tm L mob (fillFaces3 (box3 N M K) (fun _ => true) cT dx dy dz T)
      (fillFaces3 (box3 N M K) (fun _ => true) cP dx dy dz phi) i j k = speed3 kind eps scale dx dy dz tm L mob (near3 N M K T) (near3 N M K phi) i j k := by
  have f := fun a b c h => fill_near3 hN hM hK cP hP dx dy dz phi a b c h
  have g := fun a b c h => fill_near3 hN hM hK cT hT dx dy dz T a b c h
  simp only [speed3, netForce3, diff_seven, smooth3]
  rw [f i j k (.inl ⟨.inr (.inr hi), hj, hk⟩), f (i + 1) j k (.inl ⟨by omega, hj, hk⟩), f (i + -1) j k (.inl ⟨by omega, hj, hk⟩),
    f i (j + 1) k (st hj (hM) (fun h => .inr (.inl ⟨hi, h, hk⟩)) (fun h => .inl ⟨.inr (.inr hi), h, hk⟩) (by omega)), f i (j + -1) k (st hj hM (fun h => .inr (.inl ⟨hi, h, hk⟩)) (fun h => .inl ⟨.inr (.inr hi), h, hk⟩) (by omega)),
    f i j (k + 1) (st hk hK (fun h => .inr (.inr ⟨hi, hj, h⟩)) (fun h => .inl ⟨.inr (.inr hi), hj, h⟩) (by omega)), f i j (k + -1) (st hk hK (fun h => .inr (.inr ⟨hi, hj, h⟩)) (fun h => .inl ⟨.inr (.inr hi), hj, h⟩) (by omega)),
    g i j k (.inl ⟨.inr (.inr hi), hj, hk⟩), g (i + 1) j k (.inl ⟨by omega, hj, hk⟩), g (i - 1) j k (.inl ⟨by omega, hj, hk⟩),
    g i (j + 1) k (st hj (hM) (fun h => .inr (.inl ⟨hi, h, hk⟩)) (fun h => .inl ⟨.inr (.inr hi), h, hk⟩) (by omega)), g i (j - 1) k (st hj hM (fun h => .inr (.inl ⟨hi, h, hk⟩)) (fun h => .inl ⟨.inr (.inr hi), h, hk⟩) (by omega)),
    g i j (k + 1) (st hk hK (fun h => .inr (.inr ⟨hi, hj, h⟩)) (fun h => .inl ⟨.inr (.inr hi), hj, h⟩) (by omega)), g i j (k - 1) (st hk hK (fun h => .inr (.inr ⟨hi, hj, h⟩)) (fun h => .inl ⟨.inr (.inr hi), hj, h⟩) (by omega))]

theorem fill_lap3 (hN : 0 < N) (hM : 0 < M) (hK : 0 < K) (cT : Side3 → Coef) (hT : ∀ s, ZeroGradient (cT s)) (dx dy dz D : ℝ) (T : Field3) (i j k : ℤ)
    (hi : 0 ≤ i ∧ i < N) (hj : 0 ≤ j ∧ j < M) (hk : 0 ≤ k ∧ k < K) :
    laplacian3 dx dy dz D (fillFaces3 (box3 N M K) (fun _ => true) cT dx dy dz T) i j k = laplacian3 dx dy dz D (near3 N M K T) i j k := by
  have g := fun a b c h => fill_near3 hN hM hK cT hT dx dy dz T a b c h
  simp only [laplacian3]
  rw [g i j k (.inl ⟨.inr (.inr hi), hj, hk⟩), g (i + 1) j k (.inl ⟨by omega, hj, hk⟩), g (i - 1) j k (.inl ⟨by omega, hj, hk⟩),
    g i (j + 1) k (st hj (hM) (fun h => .inr (.inl ⟨hi, h, hk⟩)) (fun h => .inl ⟨.inr (.inr hi), h, hk⟩) (by omega)), g i (j - 1) k (st hj hM (fun h => .inr (.inl ⟨hi, h, hk⟩)) (fun h => .inl ⟨.inr (.inr hi), h, hk⟩) (by omega)),
    g i j (k + 1) (st hk hK (fun h => .inr (.inr ⟨hi, hj, h⟩)) (fun h => .inl ⟨.inr (.inr hi), hj, h⟩) (by omega)), g i j (k - 1) (st hk hK (fun h => .inr (.inr ⟨hi, hj, h⟩)) (fun h => .inl ⟨.inr (.inr hi), hj, h⟩) (by omega))]

/-- The rates of the cells between the walls: phase (0) and temperature (1). -/
noncomputable def meltRates3 (kind : Kind) (eps scale dx dy dz tm L cp D : ℝ) (N M K : ℕ) (hN : 0 < N) (hM : 0 < M) (hK : 0 < K) (mob : Field3)
    (y : Fin (1 + 1) × Fin N × Fin M × Fin K → ℝ) : Fin (1 + 1) × Fin N × Fin M × Fin K → ℝ := fun q =>
  if q.1 = 0 then speed3 kind eps scale dx dy dz tm L mob (cells3 N M K hN hM hK y 1) (cells3 N M K hN hM hK y 0) (q.2.1 : ℕ) (q.2.2.1 : ℕ) (q.2.2.2 : ℕ)
  else laplacian3 dx dy dz D (cells3 N M K hN hM hK y 1) (q.2.1 : ℕ) (q.2.2.1 : ℕ) (q.2.2.2 : ℕ)
    + L / cp * speed3 kind eps scale dx dy dz tm L mob (cells3 N M K hN hM hK y 1) (cells3 N M K hN hM hK y 0) (q.2.1 : ℕ) (q.2.2.1 : ℕ) (q.2.2.2 : ℕ)

theorem meltRates3_smooth (kind : Kind) (eps scale dx dy dz tm L cp D : ℝ) (hN : 0 < N) (hM : 0 < M) (hK : 0 < K) (mob : Field3) :
    LocallyLipschitz (meltRates3 kind eps scale dx dy dz tm L cp D N M K hN hM hK mob) := by
  refine ContDiff.locallyLipschitz (𝕂 := ℝ) ?_
  refine contDiff_pi.2 fun q => ?_
  by_cases h : q.1 = 0 <;>
    simp only [meltRates3, h, if_true, if_false, speed3, netForce3, smooth3, laplacian3, div3, gradFlux3X, gradFlux3Y, gradFlux3Z, cells3, div_eq_mul_inv] <;>
    fun_prop

variable {kind : Kind} {eps scale dx dy dz fa tm L cp D : ℝ}

theorem mirror_follows3 (hN : 0 < N) (hM : 0 < M) (hK : 0 < K) (htm : 0 < tm) (mob : Field3) (y : ℝ → Fin (1 + 1) × Fin N × Fin M × Fin K → ℝ) (t : ℝ)
    (h : ∀ q, HasDerivAt (fun s => y s q) (meltRates3 kind eps scale dx dy dz tm L cp D N M K hN hM hK mob (y t) q) t) :
    Follows3 kind 'l' eps scale dx dy dz fa tm L cp D (mirror3 N M K mob) (fun s => mirror3 N M K (cells3 N M K hN hM hK (y s) 0))
      (fun s => mirror3 N M K (cells3 N M K hN hM hK (y s) 1)) t := by
  have at_ : ∀ (p : Fin (1 + 1)) (i j k : ℤ), HasDerivAt (fun s => mirror3 N M K (cells3 N M K hN hM hK (y s) p) i j k)
      (meltRates3 kind eps scale dx dy dz tm L cp D N M K hN hM hK mob (y t) (p, ⟨(fold N i).toNat, by have := fold_mem hN i; omega⟩,
        ⟨(fold M j).toNat, by have := fold_mem hM j; omega⟩,
        ⟨(fold K k).toNat, by have := fold_mem hK k; omega⟩)) t := by
    intro p i j k
    have := h (p, ⟨(fold N i).toNat, by have := fold_mem hN i; omega⟩, ⟨(fold M j).toNat, by have := fold_mem hM j; omega⟩,
        ⟨(fold K k).toNat, by have := fold_mem hK k; omega⟩)
    simp only [mirror3, cells3, nearest_inside (fold_mem hN i), nearest_inside (fold_mem hM j), nearest_inside (fold_mem hK k)]
    exact this
  have sp : ∀ i j k, speed3 kind eps scale dx dy dz tm L (mirror3 N M K mob) (mirror3 N M K (cells3 N M K hN hM hK (y t) 1))
      (mirror3 N M K (cells3 N M K hN hM hK (y t) 0)) i j k =
      speed3 kind eps scale dx dy dz tm L mob (cells3 N M K hN hM hK (y t) 1) (cells3 N M K hN hM hK (y t) 0) (fold N i) (fold M j) (fold K k) := fun i j k => by
    rw [mirror_speed3 hN hM hK, near_cells3, near_cells3]
  refine ⟨speed3 kind eps scale dx dy dz tm L (mirror3 N M K mob) (mirror3 N M K (cells3 N M K hN hM hK (y t) 1)) (mirror3 N M K (cells3 N M K hN hM hK (y t) 0)),
    fun i j k => ?_, fun i j k => rate_some3 kind eps scale dx dy dz fa tm L htm.ne' _ _ _ i j k, fun i j k => ?_⟩
  · have := at_ 0 i j k
    simp only [meltRates3, if_true, Int.toNat_of_nonneg (fold_mem hN i).1, Int.toNat_of_nonneg (fold_mem hM j).1,
      Int.toNat_of_nonneg (fold_mem hK k).1] at this
    rw [sp]
    exact this
  · have := at_ 1 i j k
    simp only [meltRates3, one_ne_zero, if_false, Int.toNat_of_nonneg (fold_mem hN i).1, Int.toNat_of_nonneg (fold_mem hM j).1,
      Int.toNat_of_nonneg (fold_mem hK k).1] at this
    simp only [rhsTemp3, if_true, sp, mirror_lap3 hN hM hK, near_cells3]
    exact this

/-- Phase and temperature as one state. -/
def pair3 (phi T : Field3) : Fin (1 + 1) → Field3 := fun p => if p = 0 then phi else T

theorem to_system3 (hN : 0 < N) (hM : 0 < M) (hK : 0 < K) (htm : 0 < tm) {mob : Field3} {cP cT : Side3 → Coef} (hP : ∀ s, ZeroGradient (cP s))
    (hT : ∀ s, ZeroGradient (cT s)) {phi0 T0 : Field3} {τ : ℝ} {phi T : ℝ → Field3}
    (h : WallHistory3 kind N M K eps scale dx dy dz fa tm L cp D mob cP cT phi0 T0 τ phi T) (t : ℝ) (ht : 0 ≤ t) (htτ : t ≤ τ)
    (q : Fin (1 + 1) × Fin N × Fin M × Fin K) : HasDerivAt (fun s => read3 N M K (pair3 (phi s) (T s)) q)
      (meltRates3 kind eps scale dx dy dz tm L cp D N M K hN hM hK mob (read3 N M K (pair3 (phi t) (T t))) q) t := by
  obtain ⟨p, a, b, c⟩ := q
  have ha : (0 : ℤ) ≤ (a : ℕ) ∧ ((a : ℕ) : ℤ) < N := ⟨by omega, by have := a.2; omega⟩
  have hb : (0 : ℤ) ≤ (b : ℕ) ∧ ((b : ℕ) : ℤ) < M := ⟨by omega, by have := b.2; omega⟩
  have hc : (0 : ℤ) ≤ (c : ℕ) ∧ ((c : ℕ) : ℤ) < K := ⟨by omega, by have := c.2; omega⟩
  obtain ⟨v, hv⟩ := h.moves t ht htτ
  obtain ⟨h1, h2, h3⟩ := hv (a : ℕ) (b : ℕ) (c : ℕ) ha.1 ha.2 hb.1 hb.2 hc.1 hc.2
  have e : v (a : ℕ) (b : ℕ) (c : ℕ) = speed3 kind eps scale dx dy dz tm L mob (near3 N M K (T t)) (near3 N M K (phi t)) (a : ℕ) (b : ℕ) (c : ℕ) := by
    rw [← fill_speed3 hN hM hK cP cT hP hT kind eps scale dx dy dz tm L mob (T t) (phi t) _ _ _ ha hb hc]
    exact Option.some.inj (h1.symm.trans (rate_some3 kind eps scale dx dy dz fa tm L htm.ne' mob _ _ _ _ _))
  simp only [meltRates3, cells_read3]
  by_cases hp : p = 0
  · subst hp
    simp only [read3, pair3, if_true, one_ne_zero, if_false]
    rw [← e]
    exact h2
  · simp only [read3, pair3, hp, if_true, one_ne_zero, if_false]
    simp only [rhsTemp3, if_true, fill_lap3 hN hM hK cT hT dx dy dz D _ _ _ _ ha hb hc] at h3
    rw [← e]
    exact h3

end

/-! ## C159, 3D -/

/-- **C159** (3D): between walls that let nothing through there is a history of phase and temperature for all times from every state. -/
theorem c159_exists3 (kind : Kind) (N M K : ℕ) (hN : 0 < N) (hM : 0 < M) (hK : 0 < K) (eps scale dx dy dz fa tm L cp D : ℝ) (hs : 0 < scale) (htm : 0 < tm)
    (hcp : 0 < cp) (hD : 0 ≤ D) (mob : Field3) (hmob : ∀ i j k : ℤ, 0 ≤ i → i < N → 0 ≤ j → j < M → 0 ≤ k → k < K → 0 ≤ mob i j k) (cP cT : Side3 → Coef)
    (hP : ∀ s, ZeroGradient (cP s)) (hT : ∀ s, ZeroGradient (cT s)) (phi0 T0 : Field3) :
    ∃ phi T, ∀ τ, WallHistory3 kind N M K eps scale dx dy dz fa tm L cp D mob cP cT phi0 T0 τ phi T := by
  choose E hE using fun u => interface_defined3 eps scale dx dy dz (2 * N) (2 * M) (2 * K) u
  have hmob' : ∀ i j k, 0 ≤ mirror3 N M K mob i j k := fun i j k => hmob _ _ _ (fold_mem hN i).1 (fold_mem hN i).2 (fold_mem hM j).1 (fold_mem hM j).2 (fold_mem hK k).1
      (fold_mem hK k).2
  set V : (Fin (1 + 1) × Fin N × Fin M × Fin K → ℝ) → ℝ := fun x => E (mirror3 N M K (cells3 N M K hN hM hK x 0))
    + 1 * stored3 kind (2 * N) (2 * M) (2 * K) 0 0 0 cp tm (mirror3 N M K (cells3 N M K hN hM hK x 1)) with hV
  set x0 : Fin (1 + 1) × Fin N × Fin M × Fin K → ℝ := read3 N M K (pair3 phi0 T0) with hx0
  obtain ⟨y, y0, hy⟩ := exists_forever (meltRates3 kind eps scale dx dy dz tm L cp D N M K hN hM hK mob)
    (meltRates3_smooth kind eps scale dx dy dz tm L cp D hN hM hK mob) V
    (fun y t h => c108_decay3_partial kind (2 * N) (2 * M) (2 * K) 0 0 0 eps scale dx dy dz fa tm L cp D 1 (mirror3 N M K mob)
      (fun s => mirror3 N M K (cells3 N M K hN hM hK (y s) 0)) (fun s => mirror3 N M K (cells3 N M K hN hM hK (y s) 1)) t
      htm hcp hD zero_le_one hmob' (fun s => mirror3_per _) (fun s => mirror3_per _) (mirror_follows3 (fa := fa) hN hM hK htm mob y t h)
      (fun s => E (mirror3 N M K (cells3 N M K hN hM hK (y s) 0))) fun s => hE _)
    x0 ((|V x0 / (16 * scale)| + 2) + (tm + 1 + |V x0 / (cp / (4 * tm))|))
    (fun x hx q => by
      have l := low3 (kind := kind) htm hcp (mirror3 N M K (cells3 N M K hN hM hK x 0)) (mirror3 N M K (cells3 N M K hN hM hK x 1)) (mirror3_per _)
        (mirror3_per _) _ (hE _)
      obtain ⟨p, a, b, c⟩ := q
      have ha : (0 : ℤ) ≤ (a : ℕ) ∧ ((a : ℕ) : ℤ) < N := ⟨by omega, by have := a.2; omega⟩
      have hb : (0 : ℤ) ≤ (b : ℕ) ∧ ((b : ℕ) : ℤ) < M := ⟨by omega, by have := b.2; omega⟩
      have hc : (0 : ℤ) ≤ (c : ℕ) ∧ ((c : ℕ) : ℤ) < K := ⟨by omega, by have := c.2; omega⟩
      have bd := bound3 (show 0 < 2 * N by omega) (show 0 < 2 * M by omega) (show 0 < 2 * K by omega) hs htm hcp (mirror3 N M K (cells3 N M K hN hM hK x 0))
        (mirror3 N M K (cells3 N M K hN hM hK x 1)) (mirror3_per _) (mirror3_per _) (V x0) (l.trans hx) (a : ℕ) (b : ℕ) (c : ℕ)
      have e : ∀ p, mirror3 N M K (cells3 N M K hN hM hK x p) (a : ℕ) (b : ℕ) (c : ℕ) = x (p, a, b, c) := by
        intro p
        simp only [mirror3, fold_inside ha, fold_inside hb, fold_inside hc]
        exact congrFun (read_cells3 hN hM hK x) (p, a, b, c)
      rw [e, e] at bd
      have n1 := abs_nonneg (V x0 / (16 * scale))
      have n2 := abs_nonneg (V x0 / (cp / (4 * tm)))
      have hp : p = 0 ∨ p = 1 := by fin_cases p <;> simp
      rcases hp with rfl | rfl
      · linarith [bd.1]
      · linarith [bd.2])
  refine ⟨fun s => cells3 N M K hN hM hK (y s) 0, fun s => cells3 N M K hN hM hK (y s) 1, fun τ => ⟨fun i j k h1 h2 h3 h4 h5 h6 => ?_, fun t ht _ => ?_⟩⟩
  · simp only [y0, hx0, cells_read3, near3, nearest_inside ⟨h1, h2⟩, nearest_inside ⟨h3, h4⟩, nearest_inside ⟨h5, h6⟩, pair3, if_true, one_ne_zero, if_false, and_self]
  · obtain ⟨v, hv, hr, hTd⟩ := mirror_follows3 (fa := fa) hN hM hK htm mob y t (hy t ht)
    refine ⟨v, fun i j k h1 h2 h3 h4 h5 h6 => ?_⟩
    have hi := hv i j k
    have hr := hr i j k
    have hTd := hTd i j k
    have fi := fold_inside (N := N) ⟨h1, h2⟩
    have fj := fold_inside (N := M) ⟨h3, h4⟩
    have fk := fold_inside (N := K) ⟨h5, h6⟩
    have ev : v i j k = speed3 kind eps scale dx dy dz tm L mob (cells3 N M K hN hM hK (y t) 1) (cells3 N M K hN hM hK (y t) 0) i j k := by
      have := Option.some.inj (hr.symm.trans (rate_some3 kind eps scale dx dy dz fa tm L htm.ne' _ _ _ i j k))
      rw [this]
      have m := mirror_speed3 hN hM hK kind eps scale dx dy dz tm L mob (cells3 N M K hN hM hK (y t) 1) (cells3 N M K hN hM hK (y t) 0) i j k
      rw [near_cells3, near_cells3, fi, fj, fk] at m
      exact m
    refine ⟨?_, ?_, ?_⟩
    · rw [rate_some3 kind eps scale dx dy dz fa tm L htm.ne']
      have := fill_speed3 hN hM hK cP cT hP hT kind eps scale dx dy dz tm L mob (cells3 N M K hN hM hK (y t) 1) (cells3 N M K hN hM hK (y t) 0) i j k
        ⟨h1, h2⟩ ⟨h3, h4⟩ ⟨h5, h6⟩
      rw [near_cells3, near_cells3, ← ev] at this
      rw [← this]
      rfl
    · simpa only [mirror3, fi, fj, fk] using hi
    · simp only [rhsTemp3, if_true, mirror_lap3 hN hM hK, near_cells3, fi, fj, fk] at hTd
      simp only [rhsTemp3, if_true, fill_lap3 hN hM hK cT hT dx dy dz D _ _ _ _ ⟨h1, h2⟩ ⟨h3, h4⟩ ⟨h5, h6⟩, near_cells3]
      simpa only [mirror3, fi, fj, fk] using hTd

/-- **C159** (3D): and only one. -/
theorem c159_unique3 (kind : Kind) (N M K : ℕ) (hN : 0 < N) (hM : 0 < M) (hK : 0 < K) (eps scale dx dy dz fa tm L cp D : ℝ) (htm : 0 < tm) (mob : Field3)
    (cP cT : Side3 → Coef) (hP : ∀ s, ZeroGradient (cP s)) (hT : ∀ s, ZeroGradient (cT s)) (phi0 T0 : Field3) (τ : ℝ)
    (phi T phi' T' : ℝ → Field3) (h : WallHistory3 kind N M K eps scale dx dy dz fa tm L cp D mob cP cT phi0 T0 τ phi T)
    (h' : WallHistory3 kind N M K eps scale dx dy dz fa tm L cp D mob cP cT phi0 T0 τ phi' T') (t : ℝ) (ht : 0 ≤ t) (htτ : t ≤ τ) (i j k : ℤ)
    (hi : 0 ≤ i ∧ i < N) (hj : 0 ≤ j ∧ j < M) (hk : 0 ≤ k ∧ k < K) : phi' t i j k = phi t i j k ∧ T' t i j k = T t i j k := by
  have s0 : ∀ {φ θ : ℝ → Field3}, WallHistory3 kind N M K eps scale dx dy dz fa tm L cp D mob cP cT phi0 T0 τ φ θ →
      read3 N M K (pair3 (φ 0) (θ 0)) = read3 N M K (pair3 phi0 T0) := by
    intro φ θ h
    funext ⟨p, a, b, c⟩
    have := h.begins (a : ℕ) (b : ℕ) (c : ℕ) (by omega) (by have := a.2; omega) (by omega) (by have := b.2; omega) (by omega)
      (by have := c.2; omega)
    by_cases hp : p = 0
    · simp only [read3, pair3, hp, if_true, this.1]
    · simp only [read3, pair3, hp, if_false, this.2]
  have := unique_of _ (meltRates3_smooth kind eps scale dx dy dz tm L cp D hN hM hK mob) τ (fun s => read3 N M K (pair3 (phi' s) (T' s)))
    (fun s => read3 N M K (pair3 (phi s) (T s))) (fun s hs q => to_system3 hN hM hK htm hP hT h' s hs.1 hs.2 q)
    (fun s hs q => to_system3 hN hM hK htm hP hT h s hs.1 hs.2 q) ((s0 h').trans (s0 h).symm) t ⟨ht, htτ⟩
  have e0 := congrFun this (0, ⟨i.toNat, by omega⟩, ⟨j.toNat, by omega⟩, ⟨k.toNat, by omega⟩)
  have e1 := congrFun this (1, ⟨i.toNat, by omega⟩, ⟨j.toNat, by omega⟩, ⟨k.toNat, by omega⟩)
  simp only [read3, pair3, if_true, one_ne_zero, if_false, Int.toNat_of_nonneg hi.1, Int.toNat_of_nonneg hj.1, Int.toNat_of_nonneg hk.1] at e0 e1
  exact ⟨e0, e1⟩

/-- **C159** (3D): with positive mobilities and conductivity all cells come to rest, and neighbours in the box get the same temperature. -/
theorem c159_rests3 (kind : Kind) (N M K : ℕ) (hN : 0 < N) (hM : 0 < M) (hK : 0 < K) (eps scale dx dy dz fa tm L cp D : ℝ) (hx : dx ≠ 0) (hy : dy ≠ 0) (hz : dz ≠ 0)
    (hs : 0 < scale) (htm : 0 < tm) (hcp : 0 < cp) (hD : 0 < D) (mob : Field3)
    (hmob : ∀ i j k : ℤ, 0 ≤ i → i < N → 0 ≤ j → j < M → 0 ≤ k → k < K → 0 < mob i j k) (cP cT : Side3 → Coef) (hP : ∀ s, ZeroGradient (cP s))
    (hT : ∀ s, ZeroGradient (cT s)) (phi0 T0 : Field3) (phi T : ℝ → Field3)
    (h : ∀ τ, WallHistory3 kind N M K eps scale dx dy dz fa tm L cp D mob cP cT phi0 T0 τ phi T) (i j k : ℤ) (hi : 0 ≤ i ∧ i < N) (hj : 0 ≤ j ∧ j < M) (hk : 0 ≤ k ∧ k < K) :
    Tendsto (fun t => deriv (fun s => phi s i j k) t) atTop (𝓝 0) ∧ Tendsto (fun t => deriv (fun s => T s i j k) t) atTop (𝓝 0) ∧
      (i + 1 < N → Tendsto (fun t => T t (i + 1) j k - T t i j k) atTop (𝓝 0)) ∧
      (j + 1 < M → Tendsto (fun t => T t i (j + 1) k - T t i j k) atTop (𝓝 0)) ∧
      (k + 1 < K → Tendsto (fun t => T t i j (k + 1) - T t i j k) atTop (𝓝 0)) := by
  have mv := fun t ht => mirror_follows3 (fa := fa) hN hM hK htm mob (fun s => read3 N M K (pair3 (phi s) (T s))) t
    (fun q => to_system3 hN hM hK htm hP hT (h t) t ht le_rfl q)
  have r := c158_rests3 kind (2 * N) (2 * M) (2 * K) (by omega) (by omega) (by omega) eps scale dx dy dz fa tm L cp D hx hy hz hs htm hcp hD (mirror3 N M K mob) (mirror3_per _)
    (fun i j k => hmob _ _ _ (fold_mem hN i).1 (fold_mem hN i).2 (fold_mem hM j).1 (fold_mem hM j).2 (fold_mem hK k).1
      (fold_mem hK k).2) _ _ _ _
    (fun τ => ⟨rfl, rfl, fun s => mirror3_per _, fun s => mirror3_per _, fun t ht _ => mv t ht⟩) i j k
  have e0 : ∀ s (a b c : ℤ), 0 ≤ a ∧ a < N → 0 ≤ b ∧ b < M → 0 ≤ c ∧ c < K → mirror3 N M K (cells3 N M K hN hM hK (read3 N M K (pair3 (phi s) (T s))) 0) a b c = phi s a b c := by
    intro s a b c ha hb hc
    simp only [cells_read3, mirror3, near3, fold_inside ha, fold_inside hb, fold_inside hc, nearest_inside ha, nearest_inside hb,
      nearest_inside hc, pair3, if_true]
  have e1 : ∀ s (a b c : ℤ), 0 ≤ a ∧ a < N → 0 ≤ b ∧ b < M → 0 ≤ c ∧ c < K → mirror3 N M K (cells3 N M K hN hM hK (read3 N M K (pair3 (phi s) (T s))) 1) a b c = T s a b c := by
    intro s a b c ha hb hc
    simp only [cells_read3, mirror3, near3, fold_inside ha, fold_inside hb, fold_inside hc, nearest_inside ha, nearest_inside hb,
      nearest_inside hc, pair3, one_ne_zero, if_false]
  simp only [e0 _ i j k hi hj hk, e1 _ i j k hi hj hk] at r
  refine ⟨r.1, r.2.1, fun h1 => ?_, fun h1 => ?_, fun h1 => ?_⟩
  · have := r.2.2.1
    simpa only [e1 _ (i + 1) j k ⟨by omega, h1⟩ hj hk] using this
  · have := r.2.2.2.1
    simpa only [e1 _ i (j + 1) k hi ⟨by omega, h1⟩ hk] using this
  · have := r.2.2.2.2
    simpa only [e1 _ i j (k + 1) hi hj ⟨by omega, h1⟩] using this

end AMPE.MeltWalls.Props
