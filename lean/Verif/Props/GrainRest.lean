import Verif.Proofs.GrainRest
import Mathlib.Analysis.SpecialFunctions.Sqrt

/-!
# C152: a grain structure comes to rest

Order parameters of a polycrystal, integrated from time 0 on in a closed (periodic) sample.
-/

namespace AMPE.GrainRest.Props

open AMPE.Functions AMPE.Flux AMPE.PhaseRHS AMPE.PhaseRHS.Props AMPE.PhaseBounds AMPE.MultiBounds AMPE.GrainFlow AMPE.GrainFlow.Props
  AMPE.MeltFlow AMPE.Rest AMPE.GrainRest Filter Topology

/-! ## Specification -/

/-- A run from time 0 on of a closed sample of `N × M` cells: the order parameters repeat with the sample and move as the code says.  The
mobility may change from cell to cell and from time to time between two positive bounds.  Where a driving force acts, the order
parameters do not all approach zero. -/
structure GrainRun2 (n : ℕ) (st : Stencil) (eps gamma m dx dy : ℝ) (N M : ℕ) (mob : ℝ → Field2) (f : ℤ → ℤ → GrainForce)
    (phi : ℝ → Fin (n + 1) → Field2) : Prop where
  moves : ∀ t, 0 ≤ t → Moves2 n st eps gamma m dx dy N M mob f phi t
  mobility : ∃ m0 m1 : ℝ, 0 < m0 ∧ ∀ t, 0 ≤ t → ∀ i j, m0 ≤ mob t i j ∧ mob t i j ≤ m1
  filled : ∀ i j, f i j = .none ∨ ∃ c > 0, ∀ t, 0 ≤ t → c ≤ ∑ p, phi t p i j ^ 2

/-- The same in 3D. -/
structure GrainRun3 (n : ℕ) (eps gamma m dx dy dz : ℝ) (N M K : ℕ) (mob : ℝ → Field3) (f : ℤ → ℤ → ℤ → GrainForce)
    (phi : ℝ → Fin (n + 1) → Field3) : Prop where
  moves : ∀ t, 0 ≤ t → Moves3 n eps gamma m dx dy dz N M K mob f phi t
  mobility : ∃ m0 m1 : ℝ, 0 < m0 ∧ ∀ t, 0 ≤ t → ∀ i j k, m0 ≤ mob t i j k ∧ mob t i j k ≤ m1
  filled : ∀ i j k, f i j k = .none ∨ ∃ c > 0, ∀ t, 0 ≤ t → c ≤ ∑ p, phi t p i j k ^ 2

/-! ## Lemmas -/

theorem never_grows {V : ℝ → ℝ} (h : ∀ t, 0 ≤ t → ∃ d, HasDerivAt V d t ∧ d ≤ 0) (t : ℝ) (ht : 0 ≤ t) : V t ≤ V 0 := by
  choose! d hd1 hd2 using h
  have anti : AntitoneOn V (Set.Ici 0) := by
    refine antitoneOn_of_deriv_nonpos (convex_Ici 0) (fun x hx => (hd1 x hx).continuousAt.continuousWithinAt)
      (fun x hx => ?_) (fun x hx => ?_)
    · rw [interior_Ici] at hx
      exact (hd1 x (le_of_lt hx)).differentiableAt.differentiableWithinAt
    · rw [interior_Ici] at hx
      rw [(hd1 x (le_of_lt hx)).deriv]
      exact hd2 x (le_of_lt hx)
  exact anti (Set.mem_Ici.2 le_rfl) (Set.mem_Ici.2 ht) ht

section
variable {n : ℕ} {st : Stencil} {eps gamma m dx dy : ℝ} {N M : ℕ} {mob : ℝ → Field2} {f : ℤ → ℤ → GrainForce}
  {phi : ℝ → Fin (n + 1) → Field2}

/-- The energy has a lower bound that controls the order parameters, and falls at least as fast as the forces say. -/
theorem basics (hg : 0 ≤ gamma) (hm : 0 ≤ m) (r : GrainRun2 n st eps gamma m dx dy N M mob f phi) :
    ∃ V : ℝ → ℝ, ∃ C m0 : ℝ, 0 < m0 ∧
      (∀ t, (S2 N M 0 0 fun i j => ∑ p, m / 4 * (phi t p i j ^ 2 - 1) ^ 2) - C ≤ V t) ∧
      ∀ t, 0 ≤ t → ∃ d, HasDerivAt V d t ∧
        d ≤ -(m0 * S2 N M 0 0 fun i j => ∑ p, push2 n st eps gamma m dx dy f (phi t) p i j ^ 2) := by
  obtain ⟨m0, m1, hm0, hmob⟩ := r.mobility
  choose B hB using fun i j => bulk_low n (f i j)
  refine ⟨fun s => grainEnergy2 n st eps gamma m dx dy 1 N M 0 0 f (phi s),
    S2 N M 0 0 fun i j => ((n + 1 : ℕ) : ℝ) * (m * (1 / 4 + gamma / 6)) + B i j, m0, hm0, fun t => ?_, fun t ht => ?_⟩
  · rw [← S2_sub]
    refine S2_le fun i j => ?_
    have h1 := wells_ge (n + 1) gamma m hg hm fun p => phi t p i j
    have h2 := hB i j fun p => phi t p i j
    have h3 : 0 ≤ ∑ p, gradEnergy st eps dx dy (phi t p) i j := Finset.sum_nonneg fun p _ => grad_nonneg _ _ _ _ _ _ _
    rw [one_mul]
    linarith
  · refine ⟨_, c139_balance n st eps gamma m dx dy 1 N M 0 0 mob f phi t (r.moves t ht), neg_le_neg ?_⟩
    rw [← S2_mul]
    refine S2_le fun i j => ?_
    rw [one_mul]
    exact mul_le_mul_of_nonneg_right (hmob t ht i j).1 (Finset.sum_nonneg fun p _ => sq_nonneg _)

theorem tame (hN : 0 < N) (hM : 0 < M) (hg : 0 ≤ gamma) (hm : 0 < m) (r : GrainRun2 n st eps gamma m dx dy N M mob f phi) :
    ∀ p i j, Tame fun t => phi t p i j := by
  obtain ⟨V, C, m0, hm0, low, rate⟩ := basics hg hm.le r
  have top := never_grows (V := V) fun t ht => by
    obtain ⟨d, h1, h2⟩ := rate t ht
    exact ⟨d, h1, h2.trans (neg_nonpos.2 (mul_nonneg hm0.le (S2_nonneg fun i j => Finset.sum_nonneg fun p _ => sq_nonneg _)))⟩
  have bphi : ∀ p i j, Bounded fun t => phi t p i j := by
    intro p i j
    refine ⟨3 + 4 * (V 0 + C) / m, fun t ht => quartic_bounds m _ _ hm ?_⟩
    have per := (r.moves t ht).per t
    have c := cell_le_S2 (lo0 := 0) (lo1 := 0) hN hM (f := fun i j => ∑ p, m / 4 * (phi t p i j ^ 2 - 1) ^ 2)
      ⟨fun i j => by simp only [(per _).1], fun i j => by simp only [(per _).2]⟩
      (fun i j => Finset.sum_nonneg fun p _ => by positivity) i j
    have d := Finset.single_le_sum (f := fun p => m / 4 * (phi t p i j ^ 2 - 1) ^ 2) (fun p _ => by positivity) (Finset.mem_univ p)
    linarith [low t, top t ht]
  obtain ⟨m0', m1, hm0', hmob⟩ := r.mobility
  intro p i j
  have bm : Bounded fun t => mob t i j := ⟨m1, fun t ht => by
    rw [abs_of_nonneg (hm0'.le.trans (hmob t ht i j).1)]; exact (hmob t ht i j).2⟩
  refine Tame.of_deriv (bphi p i j) (fun t ht => (r.moves t ht).moves p i j) ?_
  simp only [rate_push2]
  exact bm.mul (push_closed closed_bounded n st eps gamma m dx dy f phi bphi i j (r.filled i j) p)

/-- The forces fade in the cells of the box. -/
theorem fade (hN : 0 < N) (hM : 0 < M) (hg : 0 ≤ gamma) (hm : 0 < m) (r : GrainRun2 n st eps gamma m dx dy N M mob f phi)
    (p : Fin (n + 1)) {a b : ℕ} (ha : a < N) (hb : b < M) :
    Tendsto (fun t => push2 n st eps gamma m dx dy f (phi t) p (0 + (a : ℤ)) (0 + (b : ℤ))) atTop (𝓝 0) := by
  obtain ⟨V, C, m0, hm0, low, rate⟩ := basics hg hm.le r
  have tphi := tame hN hM hg hm r
  set A : ℝ → ℝ := fun t => S2 N M 0 0 fun i j => ∑ p, push2 n st eps gamma m dx dy f (phi t) p i j ^ 2 with hA
  have nn : ∀ t i j, 0 ≤ ∑ p, push2 n st eps gamma m dx dy f (phi t) p i j ^ 2 := fun t i j => Finset.sum_nonneg fun p _ => sq_nonneg _
  have A0 : ∀ t, 0 ≤ A t := fun t => S2_nonneg fun i j => nn t i j
  have tA : Tame A := S2_tame fun i j => Tame.sum _ fun p =>
    (push_closed closed_tame n st eps gamma m dx dy f phi tphi i j (r.filled i j) p).pow_two
  have lim : Tendsto (fun t => m0 * A t) atTop (𝓝 0) := fades (-C) (fun t _ => by
      have : 0 ≤ S2 N M 0 0 fun i j => ∑ p, m / 4 * (phi t p i j ^ 2 - 1) ^ 2 :=
        S2_nonneg fun i j => Finset.sum_nonneg fun p _ => by positivity
      linarith [low t]) rate (fun t _ => mul_nonneg hm0.le (A0 t)) ((Tame.const m0).mul tA)
  have lA : Tendsto A atTop (𝓝 0) := by
    have := lim.const_mul m0⁻¹
    rw [mul_zero] at this
    refine this.congr fun t => ?_
    field_simp
  refine tendsto_of_sq (squeeze_zero (fun t => sq_nonneg _) (fun t => ?_) lA)
  refine le_trans (Finset.single_le_sum (f := fun p => push2 n st eps gamma m dx dy f (phi t) p (0 + (a : ℤ)) (0 + (b : ℤ)) ^ 2)
    (fun p _ => sq_nonneg _) (Finset.mem_univ p)) ?_
  simp only [hA, S2]
  refine le_trans ?_ (Finset.single_le_sum (f := fun b => ∑ a ∈ Finset.range N, ∑ p,
      push2 n st eps gamma m dx dy f (phi t) p (0 + (a : ℤ)) (0 + ((b : ℕ) : ℤ)) ^ 2)
    (fun b _ => Finset.sum_nonneg fun a _ => nn t _ _) (Finset.mem_range.2 hb))
  exact Finset.single_le_sum (f := fun a => ∑ p, push2 n st eps gamma m dx dy f (phi t) p (0 + ((a : ℕ) : ℤ)) (0 + (b : ℤ)) ^ 2)
    (fun a _ => nn t _ _) (Finset.mem_range.2 ha)

end

/-! ## C152 -/

/-- **C152** (2D): the run comes to rest: the rate of every order parameter in every cell tends to zero, and order parameters stay bounded.
Missing from the full claim: with a driving force, cells in which all order parameters approach zero. -/
theorem c152_rest_partial (n : ℕ) (st : Stencil) (eps gamma m dx dy : ℝ) (N M : ℕ) (hN : 0 < N) (hM : 0 < M) (hg : 0 ≤ gamma) (hm : 0 < m)
    (mob : ℝ → Field2) (f : ℤ → ℤ → GrainForce) (phi : ℝ → Fin (n + 1) → Field2) (r : GrainRun2 n st eps gamma m dx dy N M mob f phi)
    (p : Fin (n + 1)) (i j : ℤ) :
    Tendsto (fun t => deriv (fun s => phi s p i j) t) atTop (𝓝 0) ∧ ∃ B, ∀ t, 0 ≤ t → |phi t p i j| ≤ B := by
  refine ⟨?_, (tame hN hM hg hm r p i j).1⟩
  obtain ⟨a, ha, b, hb, e⟩ := copy2 hN hM 0 0 i j
  obtain ⟨m0, m1, hm0, hmob⟩ := r.mobility
  have bm : Bounded fun t => mob t (0 + (a : ℤ)) (0 + (b : ℤ)) := ⟨m1, fun t ht => by
    rw [abs_of_nonneg (hm0.le.trans (hmob t ht _ _).1)]; exact (hmob t ht _ _).2⟩
  refine (bounded_mul_tendsto bm (fade hN hM hg hm r p ha hb)).congr' ?_
  filter_upwards [eventually_ge_atTop 0] with t ht
  have c : (fun s => phi s p i j) = fun s => phi s p (0 + (a : ℤ)) (0 + (b : ℤ)) := funext fun s => e _ ((r.moves t ht).per s p)
  rw [c, ((r.moves t ht).moves p _ _).deriv, rate_push2]

/-- **C152** (grain growth, 2D): without driving forces nothing more is asked of the order parameters; limits of the run are states in
which nothing moves. -/
theorem c152_growth (n : ℕ) (st : Stencil) (eps gamma m dx dy : ℝ) (N M : ℕ) (hN : 0 < N) (hM : 0 < M) (hg : 0 ≤ gamma) (hm : 0 < m)
    (mob : ℝ → Field2) (m0 m1 : ℝ) (hm0 : 0 < m0) (hmob : ∀ t, 0 ≤ t → ∀ i j, m0 ≤ mob t i j ∧ mob t i j ≤ m1)
    (phi : ℝ → Fin (n + 1) → Field2) (r : ∀ t, 0 ≤ t → Moves2 n st eps gamma m dx dy N M mob (fun _ _ => .none) phi t) :
    (∀ p i j, Tendsto (fun t => deriv (fun s => phi s p i j) t) atTop (𝓝 0)) ∧
    (∃ (τ : ℕ → ℝ) (φ' : Fin (n + 1) → Field2), Tendsto τ atTop atTop ∧ ∀ p i j, Tendsto (fun k => phi (τ k) p i j) atTop (𝓝 (φ' p i j))) ∧
    ∀ (τ : ℕ → ℝ) (φ' : Fin (n + 1) → Field2), Tendsto τ atTop atTop → (∀ p i j, Tendsto (fun k => phi (τ k) p i j) atTop (𝓝 (φ' p i j))) →
      ∀ mob' p i j, rateMulti2 n st .fixed eps gamma m dx dy mob' (fun _ _ => .none) φ' p i j = 0 := by
  have run : GrainRun2 n st eps gamma m dx dy N M mob (fun _ _ => .none) phi := ⟨r, ⟨m0, m1, hm0, hmob⟩, fun _ _ => Or.inl rfl⟩
  refine ⟨fun p i j => (c152_rest_partial n st eps gamma m dx dy N M hN hM hg hm mob _ phi run p i j).1, ?_, ?_⟩
  · choose P hP using fun p i j => (tame hN hM hg hm run p i j).1
    have cP : IsCompact (Set.pi Set.univ fun p : Fin (n + 1) => Set.pi Set.univ fun i : ℤ => Set.pi Set.univ fun j : ℤ =>
        Set.Icc (-P p i j) (P p i j)) :=
      isCompact_univ_pi fun p => isCompact_univ_pi fun i => isCompact_univ_pi fun j => isCompact_Icc
    obtain ⟨φ', -, g, hgm, hlim⟩ := cP.tendsto_subseq (x := fun k : ℕ => phi (k : ℝ)) fun k p _ i _ j _ => abs_le.1 (hP p i j k k.cast_nonneg)
    exact ⟨fun k => (g k : ℝ), φ', tendsto_natCast_atTop_atTop.comp hgm.tendsto_atTop, fun p i j =>
      tendsto_pi_nhds.1 (tendsto_pi_nhds.1 (tendsto_pi_nhds.1 hlim p) i) j⟩
  · intro τ φ' hτ hφ mob' p i j
    rw [rate_push2]
    have hlim : Tendsto (fun k => (phi (τ k) : Fin (n + 1) → ℤ → ℤ → ℝ)) atTop (𝓝 φ') :=
      tendsto_pi_nhds.2 fun p => tendsto_pi_nhds.2 fun i => tendsto_pi_nhds.2 fun j => hφ p i j
    have cont : Continuous fun u : Fin (n + 1) → ℤ → ℤ → ℝ => push2 n st eps gamma m dx dy (fun _ _ => .none) u p i j := by
      cases st <;>
        simp only [push2, rateMulti2, cellRateM, frameTerm, drive, multiWell, diffTerm2, div2, gradFluxX, gradFluxY, isoFluxX, isoFluxY] <;>
        fun_prop
    have z : Tendsto (fun k => push2 n st eps gamma m dx dy (fun _ _ => .none) (phi (τ k)) p i j) atTop (𝓝 0) := by
      obtain ⟨a, ha, b, hb, e⟩ := copy2 hN hM 0 0 i j
      have l := (fade hN hM hg hm run p ha hb).comp hτ
      refine l.congr fun k => ?_
      have per := fun q => (r 0 le_rfl).per (τ k) q
      refine (e (fun i j => push2 n st eps gamma m dx dy (fun _ _ => .none) (phi (τ k)) p i j) ⟨fun i j => ?_, fun i j => ?_⟩).symm
      · cases st <;> simp only [push2, rateMulti2, cellRateM, frameTerm, drive, multiWell, diffTerm2, div2, gradFluxX, gradFluxY, isoFluxX,
          isoFluxY, show i + (N : ℤ) - 1 = i - 1 + N by ring, show i + (N : ℤ) + 1 = i + 1 + N by ring,
          show i + 1 + (N : ℤ) - 1 = i + 1 - 1 + N by ring, (per _).1]
      · cases st <;> simp only [push2, rateMulti2, cellRateM, frameTerm, drive, multiWell, diffTerm2, div2, gradFluxX, gradFluxY, isoFluxX,
          isoFluxY, show j + (M : ℤ) - 1 = j - 1 + M by ring, show j + (M : ℤ) + 1 = j + 1 + M by ring,
          show j + 1 + (M : ℤ) - 1 = j + 1 - 1 + M by ring, show j + 1 + (M : ℤ) + 1 = j + 1 + 1 + M by ring, (per _).2]
    rw [tendsto_nhds_unique ((cont.tendsto φ').comp hlim) z, mul_zero]

/-! ## 3D -/

theorem rate_push3 (n : ℕ) (eps gamma m dx dy dz : ℝ) (mob : Field3) (f : ℤ → ℤ → ℤ → GrainForce) (phi : Fin (n + 1) → Field3)
    (p : Fin (n + 1)) (i j k : ℤ) : rateMulti3 n .fixed eps gamma m dx dy dz mob f phi p i j k =
      mob i j k * push3 n eps gamma m dx dy dz f phi p i j k := by
  simp only [push3, rateMulti3, cellRateM, frameTerm]; ring

section
variable {n : ℕ} {eps gamma m dx dy dz : ℝ} {N M K : ℕ} {mob : ℝ → Field3} {f : ℤ → ℤ → ℤ → GrainForce}
  {phi : ℝ → Fin (n + 1) → Field3}

/-- The energy has a lower bound that controls the order parameters, and falls at least as fast as the forces say. -/
theorem basics3 (hg : 0 ≤ gamma) (hm : 0 ≤ m) (r : GrainRun3 n eps gamma m dx dy dz N M K mob f phi) :
    ∃ V : ℝ → ℝ, ∃ C m0 : ℝ, 0 < m0 ∧
      (∀ t, (S3 N M K 0 0 0 fun i j k => ∑ p, m / 4 * (phi t p i j k ^ 2 - 1) ^ 2) - C ≤ V t) ∧
      ∀ t, 0 ≤ t → ∃ d, HasDerivAt V d t ∧
        d ≤ -(m0 * S3 N M K 0 0 0 fun i j k => ∑ p, push3 n eps gamma m dx dy dz f (phi t) p i j k ^ 2) := by
  obtain ⟨m0, m1, hm0, hmob⟩ := r.mobility
  choose B hB using fun i j k => bulk_low n (f i j k)
  refine ⟨fun s => grainEnergy3 n eps gamma m dx dy dz 1 N M K 0 0 0 f (phi s),
    S3 N M K 0 0 0 fun i j k => ((n + 1 : ℕ) : ℝ) * (m * (1 / 4 + gamma / 6)) + B i j k, m0, hm0, fun t => ?_, fun t ht => ?_⟩
  · rw [← S3_sub]
    refine S3_le fun i j k => ?_
    have h1 := wells_ge (n + 1) gamma m hg hm fun p => phi t p i j k
    have h2 := hB i j k fun p => phi t p i j k
    have h3 : 0 ≤ ∑ p, eps ^ 2 / 2 * (slope3 dx 0 (phi t p) i j k ^ 2 + slope3 dy 1 (phi t p) i j k ^ 2
        + slope3 dz 2 (phi t p) i j k ^ 2) := Finset.sum_nonneg fun p _ => by positivity
    rw [one_mul]
    linarith
  · refine ⟨_, c139_balance_3d n eps gamma m dx dy dz 1 N M K 0 0 0 mob f phi t (r.moves t ht), neg_le_neg ?_⟩
    rw [← S3_mul]
    refine S3_le fun i j k => ?_
    rw [one_mul]
    exact mul_le_mul_of_nonneg_right (hmob t ht i j k).1 (Finset.sum_nonneg fun p _ => sq_nonneg _)

theorem tame3 (hN : 0 < N) (hM : 0 < M) (hK : 0 < K) (hg : 0 ≤ gamma) (hm : 0 < m) (r : GrainRun3 n eps gamma m dx dy dz N M K mob f phi) :
    ∀ p i j k, Tame fun t => phi t p i j k := by
  obtain ⟨V, C, m0, hm0, low, rate⟩ := basics3 hg hm.le r
  have top := never_grows (V := V) fun t ht => by
    obtain ⟨d, h1, h2⟩ := rate t ht
    exact ⟨d, h1, h2.trans (neg_nonpos.2 (mul_nonneg hm0.le (S3_nonneg fun i j k => Finset.sum_nonneg fun p _ => sq_nonneg _)))⟩
  have bphi : ∀ p i j k, Bounded fun t => phi t p i j k := by
    intro p i j k
    refine ⟨3 + 4 * (V 0 + C) / m, fun t ht => quartic_bounds m _ _ hm ?_⟩
    have per := (r.moves t ht).per t
    have c := cell_le_S3 (lo0 := 0) (lo1 := 0) (lo2 := 0) hN hM hK (f := fun i j k => ∑ p, m / 4 * (phi t p i j k ^ 2 - 1) ^ 2)
      ⟨fun i j k => by simp only [(per _).1], fun i j k => by simp only [(per _).2.1], fun i j k => by simp only [(per _).2.2]⟩
      (fun i j k => Finset.sum_nonneg fun p _ => by positivity) i j k
    have d := Finset.single_le_sum (f := fun p => m / 4 * (phi t p i j k ^ 2 - 1) ^ 2) (fun p _ => by positivity) (Finset.mem_univ p)
    linarith [low t, top t ht]
  obtain ⟨m0', m1, hm0', hmob⟩ := r.mobility
  intro p i j k
  have bm : Bounded fun t => mob t i j k := ⟨m1, fun t ht => by
    rw [abs_of_nonneg (hm0'.le.trans (hmob t ht i j k).1)]; exact (hmob t ht i j k).2⟩
  refine Tame.of_deriv (bphi p i j k) (fun t ht => (r.moves t ht).moves p i j k) ?_
  simp only [rate_push3]
  exact bm.mul (push3_closed closed_bounded n eps gamma m dx dy dz f phi bphi i j k (r.filled i j k) p)

/-- The forces fade in the cells of the box. -/
theorem fade3 (hN : 0 < N) (hM : 0 < M) (hK : 0 < K) (hg : 0 ≤ gamma) (hm : 0 < m) (r : GrainRun3 n eps gamma m dx dy dz N M K mob f phi)
    (p : Fin (n + 1)) {a b c : ℕ} (ha : a < N) (hb : b < M) (hc : c < K) :
    Tendsto (fun t => push3 n eps gamma m dx dy dz f (phi t) p (0 + (a : ℤ)) (0 + (b : ℤ)) (0 + (c : ℤ))) atTop (𝓝 0) := by
  obtain ⟨V, C, m0, hm0, low, rate⟩ := basics3 hg hm.le r
  have tphi := tame3 hN hM hK hg hm r
  set A : ℝ → ℝ := fun t => S3 N M K 0 0 0 fun i j k => ∑ p, push3 n eps gamma m dx dy dz f (phi t) p i j k ^ 2 with hA
  have nn : ∀ t i j k, 0 ≤ ∑ p, push3 n eps gamma m dx dy dz f (phi t) p i j k ^ 2 := fun t i j k => Finset.sum_nonneg fun p _ => sq_nonneg _
  have A0 : ∀ t, 0 ≤ A t := fun t => S3_nonneg fun i j k => nn t i j k
  have tA : Tame A := S3_tame fun i j k => Tame.sum _ fun p =>
    (push3_closed closed_tame n eps gamma m dx dy dz f phi tphi i j k (r.filled i j k) p).pow_two
  have lim : Tendsto (fun t => m0 * A t) atTop (𝓝 0) := fades (-C) (fun t _ => by
      have : 0 ≤ S3 N M K 0 0 0 fun i j k => ∑ p, m / 4 * (phi t p i j k ^ 2 - 1) ^ 2 :=
        S3_nonneg fun i j k => Finset.sum_nonneg fun p _ => by positivity
      linarith [low t]) rate (fun t _ => mul_nonneg hm0.le (A0 t)) ((Tame.const m0).mul tA)
  have lA : Tendsto A atTop (𝓝 0) := by
    have := lim.const_mul m0⁻¹
    rw [mul_zero] at this
    refine this.congr fun t => ?_
    field_simp
  refine tendsto_of_sq (squeeze_zero (fun t => sq_nonneg _) (fun t => ?_) lA)
  refine le_trans (Finset.single_le_sum (f := fun p => push3 n eps gamma m dx dy dz f (phi t) p (0 + (a : ℤ)) (0 + (b : ℤ)) (0 + (c : ℤ)) ^ 2)
    (fun p _ => sq_nonneg _) (Finset.mem_univ p)) ?_
  exact box_le_S3 (lo0 := 0) (lo1 := 0) (lo2 := 0) (f := fun i j k => ∑ p, push3 n eps gamma m dx dy dz f (phi t) p i j k ^ 2) (nn t) ha hb hc

end


/-- **C152** (3D): the run comes to rest: the rate of every order parameter in every cell tends to zero, and order parameters stay bounded.
Missing from the full claim: with a driving force, cells in which all order parameters approach zero. -/
theorem c152_rest3_partial (n : ℕ) (eps gamma m dx dy dz : ℝ) (N M K : ℕ) (hN : 0 < N) (hM : 0 < M) (hK : 0 < K) (hg : 0 ≤ gamma) (hm : 0 < m)
    (mob : ℝ → Field3) (f : ℤ → ℤ → ℤ → GrainForce) (phi : ℝ → Fin (n + 1) → Field3) (r : GrainRun3 n eps gamma m dx dy dz N M K mob f phi)
    (p : Fin (n + 1)) (i j k : ℤ) :
    Tendsto (fun t => deriv (fun s => phi s p i j k) t) atTop (𝓝 0) ∧ ∃ B, ∀ t, 0 ≤ t → |phi t p i j k| ≤ B := by
  refine ⟨?_, (tame3 hN hM hK hg hm r p i j k).1⟩
  obtain ⟨a, ha, b, hb, c, hc, e⟩ := copy3 hN hM hK 0 0 0 i j k
  obtain ⟨m0, m1, hm0, hmob⟩ := r.mobility
  have bm : Bounded fun t => mob t (0 + (a : ℤ)) (0 + (b : ℤ)) (0 + (c : ℤ)) := ⟨m1, fun t ht => by
    rw [abs_of_nonneg (hm0.le.trans (hmob t ht _ _ _).1)]; exact (hmob t ht _ _ _).2⟩
  refine (bounded_mul_tendsto bm (fade3 hN hM hK hg hm r p ha hb hc)).congr' ?_
  filter_upwards [eventually_ge_atTop 0] with t ht
  have hc' : (fun s => phi s p i j k) = fun s => phi s p (0 + (a : ℤ)) (0 + (b : ℤ)) (0 + (c : ℤ)) := funext fun s => e _ ((r.moves t ht).per s p)
  rw [hc', ((r.moves t ht).moves p _ _ _).deriv, rate_push3]

/-- **C152** (grain growth, 3D): without driving forces nothing more is asked of the order parameters; limits of the run are states in
which nothing moves. -/
theorem c152_growth3 (n : ℕ) (eps gamma m dx dy dz : ℝ) (N M K : ℕ) (hN : 0 < N) (hM : 0 < M) (hK : 0 < K) (hg : 0 ≤ gamma) (hm : 0 < m)
    (mob : ℝ → Field3) (m0 m1 : ℝ) (hm0 : 0 < m0) (hmob : ∀ t, 0 ≤ t → ∀ i j k, m0 ≤ mob t i j k ∧ mob t i j k ≤ m1)
    (phi : ℝ → Fin (n + 1) → Field3) (r : ∀ t, 0 ≤ t → Moves3 n eps gamma m dx dy dz N M K mob (fun _ _ _ => .none) phi t) :
    (∀ p i j k, Tendsto (fun t => deriv (fun s => phi s p i j k) t) atTop (𝓝 0)) ∧
    (∃ (τ : ℕ → ℝ) (φ' : Fin (n + 1) → Field3), Tendsto τ atTop atTop ∧
      ∀ p i j k, Tendsto (fun q => phi (τ q) p i j k) atTop (𝓝 (φ' p i j k))) ∧
    ∀ (τ : ℕ → ℝ) (φ' : Fin (n + 1) → Field3), Tendsto τ atTop atTop → (∀ p i j k, Tendsto (fun q => phi (τ q) p i j k) atTop (𝓝 (φ' p i j k))) →
      ∀ mob' p i j k, rateMulti3 n .fixed eps gamma m dx dy dz mob' (fun _ _ _ => .none) φ' p i j k = 0 := by
  have run : GrainRun3 n eps gamma m dx dy dz N M K mob (fun _ _ _ => .none) phi := ⟨r, ⟨m0, m1, hm0, hmob⟩, fun _ _ _ => Or.inl rfl⟩
  refine ⟨fun p i j k => (c152_rest3_partial n eps gamma m dx dy dz N M K hN hM hK hg hm mob _ phi run p i j k).1, ?_, ?_⟩
  · choose P hP using fun p i j k => (tame3 hN hM hK hg hm run p i j k).1
    have cP : IsCompact (Set.pi Set.univ fun p : Fin (n + 1) => Set.pi Set.univ fun i : ℤ => Set.pi Set.univ fun j : ℤ =>
        Set.pi Set.univ fun k : ℤ => Set.Icc (-P p i j k) (P p i j k)) :=
      isCompact_univ_pi fun p => isCompact_univ_pi fun i => isCompact_univ_pi fun j => isCompact_univ_pi fun k => isCompact_Icc
    obtain ⟨φ', -, g, hgm, hlim⟩ := cP.tendsto_subseq (x := fun q : ℕ => phi (q : ℝ)) fun q p _ i _ j _ k _ =>
      abs_le.1 (hP p i j k q q.cast_nonneg)
    exact ⟨fun q => (g q : ℝ), φ', tendsto_natCast_atTop_atTop.comp hgm.tendsto_atTop, fun p i j k =>
      tendsto_pi_nhds.1 (tendsto_pi_nhds.1 (tendsto_pi_nhds.1 (tendsto_pi_nhds.1 hlim p) i) j) k⟩
  · intro τ φ' hτ hφ mob' p i j k
    rw [rate_push3]
    have hlim : Tendsto (fun q => (phi (τ q) : Fin (n + 1) → ℤ → ℤ → ℤ → ℝ)) atTop (𝓝 φ') :=
      tendsto_pi_nhds.2 fun p => tendsto_pi_nhds.2 fun i => tendsto_pi_nhds.2 fun j => tendsto_pi_nhds.2 fun k => hφ p i j k
    have cont : Continuous fun u : Fin (n + 1) → ℤ → ℤ → ℤ → ℝ => push3 n eps gamma m dx dy dz (fun _ _ _ => .none) u p i j k := by
      simp only [push3, rateMulti3, cellRateM, frameTerm, drive, multiWell, div3, gradFlux3X, gradFlux3Y, gradFlux3Z]
      fun_prop
    have z : Tendsto (fun q => push3 n eps gamma m dx dy dz (fun _ _ _ => .none) (phi (τ q)) p i j k) atTop (𝓝 0) := by
      obtain ⟨a, ha, b, hb, c, hc, e⟩ := copy3 hN hM hK 0 0 0 i j k
      have l := (fade3 hN hM hK hg hm run p ha hb hc).comp hτ
      refine l.congr fun q => ?_
      have per := fun s => (r 0 le_rfl).per (τ q) s
      refine (e (fun i j k => push3 n eps gamma m dx dy dz (fun _ _ _ => .none) (phi (τ q)) p i j k)
        ⟨fun i j k => ?_, fun i j k => ?_, fun i j k => ?_⟩).symm <;>
      simp only [push3, rateMulti3, cellRateM, frameTerm, drive, multiWell, div3, gradFlux3X, gradFlux3Y, gradFlux3Z,
        show i + (N : ℤ) - 1 = i - 1 + N by ring, show i + (N : ℤ) + 1 = i + 1 + N by ring, show i + 1 + (N : ℤ) - 1 = i + 1 - 1 + N by ring,
        show j + (M : ℤ) - 1 = j - 1 + M by ring, show j + (M : ℤ) + 1 = j + 1 + M by ring, show j + 1 + (M : ℤ) - 1 = j + 1 - 1 + M by ring,
        show k + (K : ℤ) - 1 = k - 1 + K by ring, show k + (K : ℤ) + 1 = k + 1 + K by ring, show k + 1 + (K : ℤ) - 1 = k + 1 - 1 + K by ring,
        (per _).1, (per _).2.1, (per _).2.2]
    rw [tendsto_nhds_unique ((cont.tendsto φ').comp hlim) z, mul_zero]

/-! ## Examples -/

/-- A grain that grows from weight `1/√2` to 1, from time 0 on, in 2D. -/
example (st : Stencil) (eps dx dy : ℝ) (N M : ℕ) : GrainRun2 0 st eps 0 1 dx dy N M (fun _ _ _ => 1) (fun _ _ => .none)
    (fun t _ _ _ => (Real.sqrt (1 + Real.exp (-(2 * t))))⁻¹) where
  moves := fun t _ => {
    per := fun _ _ => ⟨fun _ _ => rfl, fun _ _ => rfl⟩
    ok := fun _ _ => trivial
    moves := by
      intro p i j
      have hpos : 0 < 1 + Real.exp (-(2 * t)) := by positivity
      have hs : 0 < Real.sqrt (1 + Real.exp (-(2 * t))) := Real.sqrt_pos.mpr hpos
      have h1 : HasDerivAt (fun t : ℝ => 1 + Real.exp (-(2 * t))) (Real.exp (-(2 * t)) * -(2 * 1)) t :=
        ((((hasDerivAt_id' t).const_mul 2).neg).exp).const_add 1
      refine ((h1.sqrt hpos.ne').inv hs.ne').congr_deriv ?_
      simp only [rateMulti2, cellRateM, frameTerm, drive, diff_uniform, add_zero, zero_add, mul_one]
      rw [c35_violation_extra_force]
      rw [show (0 + 1) = 1 from rfl, Fin.sum_univ_one]
      have hsq := Real.sq_sqrt hpos.le
      have he : Real.exp (-(2 * t)) = Real.sqrt (1 + Real.exp (-(2 * t))) ^ 2 - 1 := by rw [hsq]; ring
      generalize Real.sqrt (1 + Real.exp (-(2 * t))) = r at *
      rw [he]
      field_simp
      ring }
  mobility := ⟨1, 1, one_pos, fun _ _ _ _ => ⟨le_rfl, le_rfl⟩⟩
  filled := fun _ _ => Or.inl rfl

/-- Liquid everywhere with a driving force: the sample is filled and at rest, 2D. -/
example (st : Stencil) (eps gamma m dx dy fl fa : ℝ) (N M : ℕ) : GrainRun2 1 st eps gamma m dx dy N M (fun _ _ _ => 1) (fun _ _ => .two fl fa)
    (fun _ p _ _ => if p = Fin.last 1 then 1 else 0) where
  moves := fun t _ => {
    per := fun _ _ => ⟨fun _ _ => rfl, fun _ _ => rfl⟩
    ok := fun _ _ => by simp [BulkOk, Fin.sum_univ_two, Fin.last]
    moves := by
      intro p i j
      refine (hasDerivAt_const t _).congr_deriv ?_
      simp only [rateMulti2, cellRateM, frameTerm, drive, diff_uniform, add_zero, zero_add, mul_one]
      fin_cases p <;> simp [multiWell, multiDriving, Fin.last] }
  mobility := ⟨1, 1, one_pos, fun _ _ _ _ => ⟨le_rfl, le_rfl⟩⟩
  filled := fun _ _ => Or.inr ⟨1, one_pos, fun _ _ => by simp [Fin.sum_univ_two, Fin.last]⟩

/-- One grain everywhere, 3D. -/
example (eps dx dy dz : ℝ) (N M K : ℕ) : GrainRun3 0 eps 0 1 dx dy dz N M K (fun _ _ _ _ => 1) (fun _ _ _ => .none)
    (fun t _ _ _ _ => (Real.sqrt (1 + Real.exp (-(2 * t))))⁻¹) where
  moves := fun t _ => {
    per := fun _ _ => ⟨fun _ _ _ => rfl, fun _ _ _ => rfl, fun _ _ _ => rfl⟩
    ok := fun _ _ _ => trivial
    moves := by
      intro p i j k
      have hpos : 0 < 1 + Real.exp (-(2 * t)) := by positivity
      have hs : 0 < Real.sqrt (1 + Real.exp (-(2 * t))) := Real.sqrt_pos.mpr hpos
      have h1 : HasDerivAt (fun t : ℝ => 1 + Real.exp (-(2 * t))) (Real.exp (-(2 * t)) * -(2 * 1)) t :=
        ((((hasDerivAt_id' t).const_mul 2).neg).exp).const_add 1
      refine ((h1.sqrt hpos.ne').inv hs.ne').congr_deriv ?_
      simp only [rateMulti3, cellRateM, frameTerm, drive, div3, gradFlux3X, gradFlux3Y, gradFlux3Z, sub_self, mul_zero, zero_div, add_zero,
        zero_add, mul_one]
      rw [c35_violation_extra_force]
      rw [show (0 + 1) = 1 from rfl, Fin.sum_univ_one]
      have hsq := Real.sq_sqrt hpos.le
      have he : Real.exp (-(2 * t)) = Real.sqrt (1 + Real.exp (-(2 * t))) ^ 2 - 1 := by rw [hsq]; ring
      generalize Real.sqrt (1 + Real.exp (-(2 * t))) = r at *
      rw [he]
      field_simp
      ring }
  mobility := ⟨1, 1, one_pos, fun _ _ _ _ _ => ⟨le_rfl, le_rfl⟩⟩
  filled := fun _ _ _ => Or.inl rfl

end AMPE.GrainRest.Props
