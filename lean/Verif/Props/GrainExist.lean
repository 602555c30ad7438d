import Verif.Proofs.GrainSystem

/-!
# C153: a grain structure has exactly one history
-/

namespace AMPE.GrainExist.Props

open AMPE.Functions AMPE.Flux AMPE.PhaseRHS AMPE.PhaseRHS.Props AMPE.PhaseBounds AMPE.MultiBounds AMPE.GrainFlow AMPE.GrainFlow.Props
  AMPE.MeltFlow AMPE.Rest AMPE.GrainRest AMPE.GrainRest.Props AMPE.Existence AMPE.GrainSystem Filter Topology Set

/-! ## Specification -/

/-- A history of a grain structure without driving force, in a closed sample with mobilities fixed in time, from time 0 to time `T`: it
starts with `start`, repeats with the sample, and moves as the code says. -/
structure History2 (n : ℕ) (st : Stencil) (eps gamma m dx dy : ℝ) (N M : ℕ) (mob : Field2) (start : Fin (n + 1) → Field2) (T : ℝ)
    (phi : ℝ → Fin (n + 1) → Field2) : Prop where
  begins : phi 0 = start
  per : ∀ s p, Periodic2 N M (phi s p)
  moves : ∀ t, 0 ≤ t → t ≤ T → ∀ p i j,
    HasDerivAt (fun s => phi s p i j) (rateMulti2 n st .fixed eps gamma m dx dy mob (fun _ _ => .none) (phi t) p i j) t

/-- The same in 3D. -/
structure History3 (n : ℕ) (eps gamma m dx dy dz : ℝ) (N M K : ℕ) (mob : Field3) (start : Fin (n + 1) → Field3) (T : ℝ)
    (phi : ℝ → Fin (n + 1) → Field3) : Prop where
  begins : phi 0 = start
  per : ∀ s p, Periodic3 N M K (phi s p)
  moves : ∀ t, 0 ≤ t → t ≤ T → ∀ p i j k,
    HasDerivAt (fun s => phi s p i j k) (rateMulti3 n .fixed eps gamma m dx dy dz mob (fun _ _ _ => .none) (phi t) p i j k) t

/-! ## 2D -/

section
variable {n : ℕ} {st : Stencil} {eps gamma m dx dy : ℝ} {N M : ℕ}

theorem low2 (hg : 0 ≤ gamma) (hm : 0 < m) (hN : 0 < N) (hM : 0 < M) (phi : Fin (n + 1) → Field2) (per : ∀ p, Periodic2 N M (phi p))
    (p : Fin (n + 1)) (i j : ℤ) :
    |phi p i j| ≤ 3 + 4 * (grainEnergy2 n st eps gamma m dx dy 1 N M 0 0 (fun _ _ => .none) phi
      + S2 N M 0 0 fun _ _ => ((n + 1 : ℕ) : ℝ) * (m * (1 / 4 + gamma / 6))) / m := by
  refine quartic_bounds m _ _ hm ?_
  have c := cell_le_S2 (lo0 := 0) (lo1 := 0) hN hM (f := fun i j => ∑ p, m / 4 * (phi p i j ^ 2 - 1) ^ 2)
    ⟨fun i j => by simp only [(per _).1], fun i j => by simp only [(per _).2]⟩
    (fun i j => Finset.sum_nonneg fun p _ => by positivity) i j
  have d := Finset.single_le_sum (f := fun p => m / 4 * (phi p i j ^ 2 - 1) ^ 2) (fun p _ => by positivity) (Finset.mem_univ p)
  have e : (S2 N M 0 0 fun i j => ∑ p, m / 4 * (phi p i j ^ 2 - 1) ^ 2) - (S2 N M 0 0 fun _ _ => ((n + 1 : ℕ) : ℝ) * (m * (1 / 4 + gamma / 6)))
      ≤ grainEnergy2 n st eps gamma m dx dy 1 N M 0 0 (fun _ _ => .none) phi := by
    rw [← S2_sub]
    refine S2_le fun i j => ?_
    have h1 := wells_ge (n + 1) gamma m hg hm.le fun p => phi p i j
    have h3 : 0 ≤ ∑ p, gradEnergy st eps dx dy (phi p) i j := Finset.sum_nonneg fun p _ => grad_nonneg _ _ _ _ _ _ _
    have h2 : bulk n .none (fun p => phi p i j) = 0 := rfl
    rw [one_mul]
    linarith
  linarith

theorem moves2_of [NeZero N] [NeZero M] {mob : Field2} (hp : Periodic2 N M mob) (y : ℝ → Fin (n + 1) × ZMod N × ZMod M → ℝ) (t : ℝ)
    (h : ∀ q, HasDerivAt (fun s => y s q) (rates2 n st eps gamma m dx dy N M mob (y t) q) t) :
    Moves2 n st eps gamma m dx dy N M (fun _ => mob) (fun _ _ => .none) (fun s => field2 (y s)) t where
  per := fun s p => field2_per _ _
  ok := fun i j => trivial
  moves := fun p i j => by
    have := h (p, (i : ZMod N), (j : ZMod M))
    rwa [rates2_eq st eps gamma m dx dy hp] at this

theorem exists2 (hN : 0 < N) (hM : 0 < M) (hg : 0 ≤ gamma) (hm : 0 < m) (mob : Field2) (hper : Periodic2 N M mob)
    (hmob : ∀ i j, 0 ≤ mob i j) (start : Fin (n + 1) → Field2) (hs : ∀ p, Periodic2 N M (start p)) :
    ∃ phi : ℝ → Fin (n + 1) → Field2, phi 0 = start ∧
      ∀ t, 0 ≤ t → Moves2 n st eps gamma m dx dy N M (fun _ => mob) (fun _ _ => .none) phi t := by
  haveI : NeZero N := ⟨hN.ne'⟩
  haveI : NeZero M := ⟨hM.ne'⟩
  set x0 : Fin (n + 1) × ZMod N × ZMod M → ℝ := fun q => start q.1 (q.2.1.val : ℤ) (q.2.2.val : ℤ) with hx0
  have back : field2 x0 = start := by
    funext p i j
    exact same2 (hs p) (by simp) (by simp)
  have fall : ∀ (y : ℝ → Fin (n + 1) × ZMod N × ZMod M → ℝ) t,
      (∀ q, HasDerivAt (fun s => y s q) (rates2 n st eps gamma m dx dy N M mob (y t) q) t) →
      ∃ d ≤ 0, HasDerivAt (fun s => grainEnergy2 n st eps gamma m dx dy 1 N M 0 0 (fun _ _ => .none) (field2 (y s))) d t := by
    intro y t h
    have b := c139_balance n st eps gamma m dx dy 1 N M 0 0 _ _ _ t (moves2_of hper y t h)
    refine ⟨_, neg_nonpos.2 (S2_nonneg fun i j => ?_), b⟩
    exact mul_nonneg zero_le_one (mul_nonneg (hmob i j) (Finset.sum_nonneg fun p _ => sq_nonneg _))
  obtain ⟨y, y0, hy⟩ := exists_forever (rates2 n st eps gamma m dx dy N M mob) (rates2_smooth st eps gamma m dx dy mob)
    (fun x => grainEnergy2 n st eps gamma m dx dy 1 N M 0 0 (fun _ _ => .none) (field2 x)) fall
    x0 (3 + 4 * (grainEnergy2 n st eps gamma m dx dy 1 N M 0 0 (fun _ _ => .none) (field2 x0)
      + S2 N M 0 0 fun _ _ => ((n + 1 : ℕ) : ℝ) * (m * (1 / 4 + gamma / 6))) / m)
    (fun x hx q => by
      have := low2 (st := st) (eps := eps) (dx := dx) (dy := dy) hg hm hN hM (field2 x) (field2_per x) q.1 (q.2.1.val : ℤ) (q.2.2.val : ℤ)
      have e : field2 x q.1 (q.2.1.val : ℤ) (q.2.2.val : ℤ) = x q := by simp [field2]
      rw [e] at this
      refine this.trans ?_
      generalize grainEnergy2 n st eps gamma m dx dy 1 N M 0 0 (fun _ _ => .none) (field2 x) = u at hx ⊢
      generalize grainEnergy2 n st eps gamma m dx dy 1 N M 0 0 (fun _ _ => .none) (field2 x0) = v at hx ⊢
      gcongr)
  refine ⟨fun s => field2 (y s), ?_, fun t ht => moves2_of hper y t (hy t ht)⟩
  simp only [y0, back]

theorem unique2 (hN : 0 < N) (hM : 0 < M) (mob : Field2) (start : Fin (n + 1) → Field2) (T : ℝ)
    (phi psi : ℝ → Fin (n + 1) → Field2) (h1 : History2 n st eps gamma m dx dy N M mob start T phi)
    (h2 : History2 n st eps gamma m dx dy N M mob start T psi) (t : ℝ) (ht : 0 ≤ t) (htT : t ≤ T) : psi t = phi t := by
  haveI : NeZero N := ⟨hN.ne'⟩
  haveI : NeZero M := ⟨hM.ne'⟩
  have red : ∀ {ψ : ℝ → Fin (n + 1) → Field2}, History2 n st eps gamma m dx dy N M mob start T ψ →
      ∃ y : ℝ → Fin (n + 1) × ZMod N × ZMod M → ℝ, (∀ s, field2 (y s) = ψ s) ∧ (y 0 = fun q => start q.1 (q.2.1.val : ℤ) (q.2.2.val : ℤ)) ∧
        ∀ t ∈ Icc 0 T, ∀ q, HasDerivAt (fun s => y s q) (rates2 n st eps gamma m dx dy N M mob (y t) q) t := by
    intro ψ h
    have back : ∀ s, field2 (fun q : Fin (n + 1) × ZMod N × ZMod M => ψ s q.1 (q.2.1.val : ℤ) (q.2.2.val : ℤ)) = ψ s := by
      intro s
      funext p i j
      exact same2 (h.per s p) (by simp) (by simp)
    refine ⟨fun s q => ψ s q.1 (q.2.1.val : ℤ) (q.2.2.val : ℤ), back, by simp only [h.begins], fun t ht q => ?_⟩
    have := h.moves t ht.1 ht.2 q.1 (q.2.1.val : ℤ) (q.2.2.val : ℤ)
    rw [rates2, back]
    exact this
  obtain ⟨y, ey, y0, hy⟩ := red h1
  obtain ⟨z, ez, z0, hz⟩ := red h2
  have := unique_of _ (rates2_smooth st eps gamma m dx dy mob) T y z hy hz (y0.trans z0.symm) t ⟨ht, htT⟩
  rw [← ey, ← ez, this]

end

/-- **C153** (2D): from every state of the sample there is a history of the grain structure for all times. -/
theorem c153_exists (n : ℕ) (st : Stencil) (eps gamma m dx dy : ℝ) (N M : ℕ) (hN : 0 < N) (hM : 0 < M) (hg : 0 ≤ gamma) (hm : 0 < m)
    (mob : Field2) (hper : Periodic2 N M mob) (hmob : ∀ i j, 0 ≤ mob i j) (start : Fin (n + 1) → Field2) (hs : ∀ p, Periodic2 N M (start p)) :
    ∃ phi, ∀ T, History2 n st eps gamma m dx dy N M mob start T phi := by
  obtain ⟨phi, h0, h⟩ := exists2 (st := st) (eps := eps) (dx := dx) (dy := dy) hN hM hg hm mob hper hmob start hs
  exact ⟨phi, fun T => ⟨h0, (h 0 le_rfl).per, fun t ht _ => (h t ht).moves⟩⟩

/-- **C153** (2D): and only one, whatever the sizes, coefficients and mobilities. -/
theorem c153_unique (n : ℕ) (st : Stencil) (eps gamma m dx dy : ℝ) (N M : ℕ) (hN : 0 < N) (hM : 0 < M)
    (mob : Field2) (start : Fin (n + 1) → Field2) (T : ℝ) (phi psi : ℝ → Fin (n + 1) → Field2)
    (h1 : History2 n st eps gamma m dx dy N M mob start T phi) (h2 : History2 n st eps gamma m dx dy N M mob start T psi)
    (t : ℝ) (ht : 0 ≤ t) (htT : t ≤ T) : psi t = phi t :=
  unique2 hN hM mob start T phi psi h1 h2 t ht htT

/-- **C153** (2D): with positive mobilities that history comes to rest. -/
theorem c153_rests (n : ℕ) (st : Stencil) (eps gamma m dx dy : ℝ) (N M : ℕ) (hN : 0 < N) (hM : 0 < M) (hg : 0 ≤ gamma) (hm : 0 < m)
    (mob : Field2) (hper : Periodic2 N M mob) (hmob : ∀ i j, 0 < mob i j) (start : Fin (n + 1) → Field2)
    (phi : ℝ → Fin (n + 1) → Field2) (h : ∀ T, History2 n st eps gamma m dx dy N M mob start T phi) (p : Fin (n + 1)) (i j : ℤ) :
    Tendsto (fun t => deriv (fun s => phi s p i j) t) atTop (𝓝 0) := by
  have box : ∀ i j, ∃ a < N, ∃ b < M, mob i j = mob (a : ℤ) (b : ℤ) := by
    intro i j
    obtain ⟨a, ha, b, hb, e⟩ := copy2 hN hM 0 0 i j
    exact ⟨a, ha, b, hb, by simpa using e _ hper⟩
  have hne : (Finset.range N ×ˢ Finset.range M).Nonempty := ⟨(0, 0), by simp [hN, hM]⟩
  obtain ⟨c, -, hc⟩ := Finset.exists_min_image _ (fun c : ℕ × ℕ => mob (c.1 : ℤ) (c.2 : ℤ)) hne
  obtain ⟨d, -, hd⟩ := Finset.exists_max_image _ (fun c : ℕ × ℕ => mob (c.1 : ℤ) (c.2 : ℤ)) hne
  refine (c152_growth n st eps gamma m dx dy N M hN hM hg hm (fun _ => mob) (mob c.1 c.2) (mob d.1 d.2) (hmob _ _) (fun t _ i j => ?_) phi
    fun t ht => ⟨(h t).per, fun i j => trivial, fun p i j => (h t).moves t ht le_rfl p i j⟩).1 p i j
  obtain ⟨a, ha, b, hb, e⟩ := box i j
  rw [e]
  exact ⟨hc (a, b) (by simp [ha, hb]), hd (a, b) (by simp [ha, hb])⟩

/-- Three grains in four times three cells: the hypotheses can be met. -/
example : ∃ phi, ∀ T, History2 2 .isotropic 0.1 1.5 1 0.1 0.2 4 3 (fun _ _ => 1) (fun p i j => if (i % 4 + j % 3) % 3 = (p : ℤ) then 1 else 0) T phi := by
  refine c153_exists 2 .isotropic _ _ _ _ _ 4 3 (by norm_num) (by norm_num) (by norm_num) (by norm_num) _ ⟨fun _ _ => rfl, fun _ _ => rfl⟩
    (fun _ _ => zero_le_one) _ fun p => ⟨fun i j => ?_, fun i j => ?_⟩ <;> simp

/-! ## 3D -/

section
variable {n : ℕ} {eps gamma m dx dy dz : ℝ} {N M K : ℕ}

theorem low3 (hg : 0 ≤ gamma) (hm : 0 < m) (hN : 0 < N) (hM : 0 < M) (hK : 0 < K) (phi : Fin (n + 1) → Field3)
    (per : ∀ p, Periodic3 N M K (phi p)) (p : Fin (n + 1)) (i j k : ℤ) :
    |phi p i j k| ≤ 3 + 4 * (grainEnergy3 n eps gamma m dx dy dz 1 N M K 0 0 0 (fun _ _ _ => .none) phi
      + S3 N M K 0 0 0 fun _ _ _ => ((n + 1 : ℕ) : ℝ) * (m * (1 / 4 + gamma / 6))) / m := by
  refine quartic_bounds m _ _ hm ?_
  have c := cell_le_S3 (lo0 := 0) (lo1 := 0) (lo2 := 0) hN hM hK (f := fun i j k => ∑ p, m / 4 * (phi p i j k ^ 2 - 1) ^ 2)
    ⟨fun i j k => by simp only [(per _).1], fun i j k => by simp only [(per _).2.1], fun i j k => by simp only [(per _).2.2]⟩
    (fun i j k => Finset.sum_nonneg fun p _ => by positivity) i j k
  have d := Finset.single_le_sum (f := fun p => m / 4 * (phi p i j k ^ 2 - 1) ^ 2) (fun p _ => by positivity) (Finset.mem_univ p)
  have e : (S3 N M K 0 0 0 fun i j k => ∑ p, m / 4 * (phi p i j k ^ 2 - 1) ^ 2)
      - (S3 N M K 0 0 0 fun _ _ _ => ((n + 1 : ℕ) : ℝ) * (m * (1 / 4 + gamma / 6)))
      ≤ grainEnergy3 n eps gamma m dx dy dz 1 N M K 0 0 0 (fun _ _ _ => .none) phi := by
    rw [← S3_sub]
    refine S3_le fun i j k => ?_
    have h1 := wells_ge (n + 1) gamma m hg hm.le fun p => phi p i j k
    have h3 : 0 ≤ ∑ p, eps ^ 2 / 2 * (slope3 dx 0 (phi p) i j k ^ 2 + slope3 dy 1 (phi p) i j k ^ 2 + slope3 dz 2 (phi p) i j k ^ 2) :=
      Finset.sum_nonneg fun p _ => by positivity
    have h2 : bulk n .none (fun p => phi p i j k) = 0 := rfl
    rw [one_mul]
    linarith
  linarith

theorem moves3_of [NeZero N] [NeZero M] [NeZero K] {mob : Field3} (hp : Periodic3 N M K mob)
    (y : ℝ → Fin (n + 1) × ZMod N × ZMod M × ZMod K → ℝ) (t : ℝ)
    (h : ∀ q, HasDerivAt (fun s => y s q) (rates3 n eps gamma m dx dy dz N M K mob (y t) q) t) :
    Moves3 n eps gamma m dx dy dz N M K (fun _ => mob) (fun _ _ _ => .none) (fun s => field3 (y s)) t where
  per := fun s p => field3_per _ _
  ok := fun i j k => trivial
  moves := fun p i j k => by
    have := h (p, (i : ZMod N), (j : ZMod M), (k : ZMod K))
    rwa [rates3_eq eps gamma m dx dy dz hp] at this

theorem exists3 (hN : 0 < N) (hM : 0 < M) (hK : 0 < K) (hg : 0 ≤ gamma) (hm : 0 < m) (mob : Field3) (hper : Periodic3 N M K mob)
    (hmob : ∀ i j k, 0 ≤ mob i j k) (start : Fin (n + 1) → Field3) (hs : ∀ p, Periodic3 N M K (start p)) :
    ∃ phi : ℝ → Fin (n + 1) → Field3, phi 0 = start ∧
      ∀ t, 0 ≤ t → Moves3 n eps gamma m dx dy dz N M K (fun _ => mob) (fun _ _ _ => .none) phi t := by
  haveI : NeZero N := ⟨hN.ne'⟩
  haveI : NeZero M := ⟨hM.ne'⟩
  haveI : NeZero K := ⟨hK.ne'⟩
  set x0 : Fin (n + 1) × ZMod N × ZMod M × ZMod K → ℝ := fun q => start q.1 (q.2.1.val : ℤ) (q.2.2.1.val : ℤ) (q.2.2.2.val : ℤ) with hx0
  have back : field3 x0 = start := by
    funext p i j k
    exact same3 (hs p) (by simp) (by simp) (by simp)
  have fall : ∀ (y : ℝ → Fin (n + 1) × ZMod N × ZMod M × ZMod K → ℝ) t,
      (∀ q, HasDerivAt (fun s => y s q) (rates3 n eps gamma m dx dy dz N M K mob (y t) q) t) →
      ∃ d ≤ 0, HasDerivAt (fun s => grainEnergy3 n eps gamma m dx dy dz 1 N M K 0 0 0 (fun _ _ _ => .none) (field3 (y s))) d t := by
    intro y t h
    have b := c139_balance_3d n eps gamma m dx dy dz 1 N M K 0 0 0 _ _ _ t (moves3_of hper y t h)
    refine ⟨_, neg_nonpos.2 (S3_nonneg fun i j k => ?_), b⟩
    exact mul_nonneg zero_le_one (mul_nonneg (hmob i j k) (Finset.sum_nonneg fun p _ => sq_nonneg _))
  obtain ⟨y, y0, hy⟩ := exists_forever (rates3 n eps gamma m dx dy dz N M K mob) (rates3_smooth eps gamma m dx dy dz mob)
    (fun x => grainEnergy3 n eps gamma m dx dy dz 1 N M K 0 0 0 (fun _ _ _ => .none) (field3 x)) fall
    x0 (3 + 4 * (grainEnergy3 n eps gamma m dx dy dz 1 N M K 0 0 0 (fun _ _ _ => .none) (field3 x0)
      + S3 N M K 0 0 0 fun _ _ _ => ((n + 1 : ℕ) : ℝ) * (m * (1 / 4 + gamma / 6))) / m)
    (fun x hx q => by
      have := low3 (eps := eps) (dx := dx) (dy := dy) (dz := dz) hg hm hN hM hK (field3 x) (field3_per x) q.1 (q.2.1.val : ℤ)
        (q.2.2.1.val : ℤ) (q.2.2.2.val : ℤ)
      have e : field3 x q.1 (q.2.1.val : ℤ) (q.2.2.1.val : ℤ) (q.2.2.2.val : ℤ) = x q := by simp [field3]
      rw [e] at this
      refine this.trans ?_
      generalize grainEnergy3 n eps gamma m dx dy dz 1 N M K 0 0 0 (fun _ _ _ => .none) (field3 x) = u at hx ⊢
      generalize grainEnergy3 n eps gamma m dx dy dz 1 N M K 0 0 0 (fun _ _ _ => .none) (field3 x0) = v at hx ⊢
      gcongr)
  refine ⟨fun s => field3 (y s), ?_, fun t ht => moves3_of hper y t (hy t ht)⟩
  simp only [y0, back]

end

/-- **C153** (3D): from every state of the sample there is a history of the grain structure for all times. -/
theorem c153_exists3 (n : ℕ) (eps gamma m dx dy dz : ℝ) (N M K : ℕ) (hN : 0 < N) (hM : 0 < M) (hK : 0 < K) (hg : 0 ≤ gamma) (hm : 0 < m)
    (mob : Field3) (hper : Periodic3 N M K mob) (hmob : ∀ i j k, 0 ≤ mob i j k) (start : Fin (n + 1) → Field3)
    (hs : ∀ p, Periodic3 N M K (start p)) : ∃ phi, ∀ T, History3 n eps gamma m dx dy dz N M K mob start T phi := by
  obtain ⟨phi, h0, h⟩ := exists3 (eps := eps) (dx := dx) (dy := dy) (dz := dz) hN hM hK hg hm mob hper hmob start hs
  exact ⟨phi, fun T => ⟨h0, (h 0 le_rfl).per, fun t ht _ => (h t ht).moves⟩⟩

/-- **C153** (3D): and only one. -/
theorem c153_unique3 (n : ℕ) (eps gamma m dx dy dz : ℝ) (N M K : ℕ) (hN : 0 < N) (hM : 0 < M) (hK : 0 < K)
    (mob : Field3) (start : Fin (n + 1) → Field3) (T : ℝ) (phi psi : ℝ → Fin (n + 1) → Field3)
    (h1 : History3 n eps gamma m dx dy dz N M K mob start T phi) (h2 : History3 n eps gamma m dx dy dz N M K mob start T psi)
    (t : ℝ) (ht : 0 ≤ t) (htT : t ≤ T) : psi t = phi t := by
  haveI : NeZero N := ⟨hN.ne'⟩
  haveI : NeZero M := ⟨hM.ne'⟩
  haveI : NeZero K := ⟨hK.ne'⟩
  have red : ∀ {ψ : ℝ → Fin (n + 1) → Field3}, History3 n eps gamma m dx dy dz N M K mob start T ψ →
      ∃ y : ℝ → Fin (n + 1) × ZMod N × ZMod M × ZMod K → ℝ, (∀ s, field3 (y s) = ψ s) ∧
        (y 0 = fun q => start q.1 (q.2.1.val : ℤ) (q.2.2.1.val : ℤ) (q.2.2.2.val : ℤ)) ∧
        ∀ t ∈ Icc 0 T, ∀ q, HasDerivAt (fun s => y s q) (rates3 n eps gamma m dx dy dz N M K mob (y t) q) t := by
    intro ψ h
    have back : ∀ s, field3 (fun q : Fin (n + 1) × ZMod N × ZMod M × ZMod K =>
        ψ s q.1 (q.2.1.val : ℤ) (q.2.2.1.val : ℤ) (q.2.2.2.val : ℤ)) = ψ s := by
      intro s
      funext p i j k
      exact same3 (h.per s p) (by simp) (by simp) (by simp)
    refine ⟨fun s q => ψ s q.1 (q.2.1.val : ℤ) (q.2.2.1.val : ℤ) (q.2.2.2.val : ℤ), back, by simp only [h.begins], fun t ht q => ?_⟩
    have := h.moves t ht.1 ht.2 q.1 (q.2.1.val : ℤ) (q.2.2.1.val : ℤ) (q.2.2.2.val : ℤ)
    rw [rates3, back]
    exact this
  obtain ⟨y, ey, y0, hy⟩ := red h1
  obtain ⟨z, ez, z0, hz⟩ := red h2
  have := unique_of _ (rates3_smooth eps gamma m dx dy dz mob) T y z hy hz (y0.trans z0.symm) t ⟨ht, htT⟩
  rw [← ey, ← ez, this]

/-- **C153** (3D): with positive mobilities that history comes to rest. -/
theorem c153_rests3 (n : ℕ) (eps gamma m dx dy dz : ℝ) (N M K : ℕ) (hN : 0 < N) (hM : 0 < M) (hK : 0 < K) (hg : 0 ≤ gamma) (hm : 0 < m)
    (mob : Field3) (hper : Periodic3 N M K mob) (hmob : ∀ i j k, 0 < mob i j k) (start : Fin (n + 1) → Field3)
    (phi : ℝ → Fin (n + 1) → Field3) (h : ∀ T, History3 n eps gamma m dx dy dz N M K mob start T phi) (p : Fin (n + 1)) (i j k : ℤ) :
    Tendsto (fun t => deriv (fun s => phi s p i j k) t) atTop (𝓝 0) := by
  have box : ∀ i j k, ∃ a < N, ∃ b < M, ∃ c < K, mob i j k = mob (a : ℤ) (b : ℤ) (c : ℤ) := by
    intro i j k
    obtain ⟨a, ha, b, hb, c, hc, e⟩ := copy3 hN hM hK 0 0 0 i j k
    exact ⟨a, ha, b, hb, c, hc, by simpa using e _ hper⟩
  have hne : (Finset.range N ×ˢ Finset.range M ×ˢ Finset.range K).Nonempty := ⟨(0, 0, 0), by simp [hN, hM, hK]⟩
  obtain ⟨c, -, hc⟩ := Finset.exists_min_image _ (fun c : ℕ × ℕ × ℕ => mob (c.1 : ℤ) (c.2.1 : ℤ) (c.2.2 : ℤ)) hne
  obtain ⟨d, -, hd⟩ := Finset.exists_max_image _ (fun c : ℕ × ℕ × ℕ => mob (c.1 : ℤ) (c.2.1 : ℤ) (c.2.2 : ℤ)) hne
  refine (c152_growth3 n eps gamma m dx dy dz N M K hN hM hK hg hm (fun _ => mob) (mob c.1 c.2.1 c.2.2) (mob d.1 d.2.1 d.2.2) (hmob _ _ _)
    (fun t _ i j k => ?_) phi
    fun t ht => ⟨(h t).per, fun i j k => trivial, fun p i j k => (h t).moves t ht le_rfl p i j k⟩).1 p i j k
  obtain ⟨a, ha, b, hb, e, he, eq⟩ := box i j k
  rw [eq]
  exact ⟨hc (a, b, e) (by simp [ha, hb, he]), hd (a, b, e) (by simp [ha, hb, he])⟩

/-- Two grains in a sample of three times two times two cells. -/
example : ∃ phi, ∀ T, History3 1 0.1 1.5 1 0.1 0.2 0.1 3 2 2 (fun _ _ _ => 1) (fun p i j k => if (i % 3 + j % 2 + k % 2) % 2 = (p : ℤ) then 1 else 0) T phi := by
  refine c153_exists3 1 _ _ _ _ _ _ 3 2 2 (by norm_num) (by norm_num) (by norm_num) (by norm_num) (by norm_num) _
    ⟨fun _ _ _ => rfl, fun _ _ _ => rfl, fun _ _ _ => rfl⟩
    (fun _ _ _ => zero_le_one) _ fun p => ⟨fun i j k => ?_, fun i j k => ?_, fun i j k => ?_⟩ <;> simp

end AMPE.GrainExist.Props
