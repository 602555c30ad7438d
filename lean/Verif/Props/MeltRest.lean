import Verif.Proofs.MeltRest
import Mathlib.Analysis.SpecialFunctions.Sqrt

/-!
# C151: a closed sample of a melt comes to rest

Phase and temperature of a pure melt, integrated together from time 0 on in a closed (periodic) sample.
-/

namespace AMPE.MeltRest.Props

open AMPE.Functions AMPE.Functions.Props AMPE.Flux AMPE.Flux.Props AMPE.PhaseRHS AMPE.PhaseRHS.Props AMPE.Thermal
  AMPE.Thermal.Props AMPE.MeltFlow AMPE.MeltFlow.Props AMPE.Rest Filter Topology

/-! ## Specification -/

/-- A run from time 0 on of a closed sample of `N × M` cells: both fields repeat with the sample, and at all times move as the code
says.  The mobility may change from cell to cell and from time to time between two positive bounds. -/
structure Run2 (kind : Kind) (interp : Char) (N M : ℕ) (eps scale dx dy fa tm L cp D : ℝ) (mob phi T : ℝ → Field2) : Prop where
  phase : ∀ t, Periodic2 N M (phi t)
  temp : ∀ t, Periodic2 N M (T t)
  moves : ∀ t, 0 ≤ t → Follows2 kind interp eps scale dx dy fa tm L cp D (mob t) phi T t
  mobility : ∃ m0 m1 : ℝ, 0 < m0 ∧ ∀ t, 0 ≤ t → ∀ i j, m0 ≤ mob t i j ∧ mob t i j ≤ m1

/-- Mean of a field over the sample. -/
noncomputable def mean2 (N M : ℕ) (u : Field2) : ℝ := (∑ b ∈ Finset.range M, ∑ a ∈ Finset.range N, u (a : ℤ) (b : ℤ)) / (N * M)

/-! ## Lemmas -/

section
variable {kind : Kind} {N M : ℕ} {eps scale dx dy fa tm L cp D : ℝ} {mob phi T : ℝ → Field2}

/-- The rates with the linear interpolation. -/
theorem rates (htm : 0 < tm) (r : Run2 kind 'l' N M eps scale dx dy fa tm L cp D mob phi T) (t : ℝ) (ht : 0 ≤ t) (i j : ℤ) :
    HasDerivAt (fun s => phi s i j) (mob t i j * netForce2 kind eps scale dx dy tm L (fun _ _ => 1) (T t) (phi t) i j) t ∧
    HasDerivAt (fun s => T s i j) (laplacian2 dx dy D (T t) i j + L / cp * (mob t i j
      * netForce2 kind eps scale dx dy tm L (fun _ _ => 1) (T t) (phi t) i j)) t := by
  obtain ⟨v, hv, hr, hTd⟩ := r.moves t ht
  obtain ⟨hp, e1, e2⟩ := rate_eq kind 'l' eps scale dx dy fa tm L htm.ne' (mob t) (T t) (phi t) i j (v i j) (hr i j)
  have : hp = 1 := (Option.some.inj ((slope_linear _).symm.trans e1)).symm
  subst this
  refine ⟨e2 ▸ hv i j, ?_⟩
  have := hTd i j
  simp only [rhsTemp2, if_true] at this
  rw [e2] at this
  exact this

/-- The Lyapunov sum, its rate, and the bounds it gives. -/
theorem basics (htm : 0 < tm) (hcp : 0 < cp) (hD : 0 ≤ D)
    (r : Run2 kind 'l' N M eps scale dx dy fa tm L cp D mob phi T) :
    ∃ V : ℝ → ℝ, ∃ m0 : ℝ, 0 < m0 ∧
      (∀ t, S2 N M 0 0 (fun i j => scale * (16 * phi t i j * phi t i j * (1 - phi t i j) * (1 - phi t i j)))
        + cp / (4 * tm) * S2 N M 0 0 (fun i j => (T t i j - tm) * (T t i j - tm)) ≤ V t) ∧
      ∀ t, 0 ≤ t → ∃ d, HasDerivAt V d t ∧
        d ≤ -(m0 * (S2 N M 0 0 fun i j => netForce2 kind eps scale dx dy tm L (fun _ _ => 1) (T t) (phi t) i j ^ 2)
          + cp / tm * D * ((1 - 8 * share2 kind) *
            (1 / (dx * dx) * S2 N M 0 0 (fun i j => (T t (i + 1) j - T t i j) * (T t (i + 1) j - T t i j))
              + 1 / (dy * dy) * S2 N M 0 0 (fun i j => (T t i (j + 1) - T t i j) * (T t i (j + 1) - T t i j))))) := by
  obtain ⟨m0, m1, hm0, hm⟩ := r.mobility
  choose E hE using fun s => c108_defined eps scale dx dy 1 N M 0 0 (phi s)
  have upt : ∀ t, Periodic2 N M fun i j => T t i j - tm := fun t =>
    ⟨fun i j => by beta_reduce; rw [(r.temp t).1], fun i j => by beta_reduce; rw [(r.temp t).2]⟩
  refine ⟨fun s => E s + 1 * stored2 kind N M 0 0 cp tm (T s), m0, hm0, fun t => ?_, fun t ht => ?_⟩
  · have ep := interface_ge eps scale dx dy N M 0 0 (phi t) (r.phase t) (E t) (hE t)
    have pos := smooth2_pos (lo0 := 0) (lo1 := 0) (share2_bounds kind).1 _ (upt t)
    have sp : 0 ≤ S2 N M 0 0 fun i j => (T t i j - tm) * (T t i j - tm) := S2_nonneg fun i j => mul_self_nonneg _
    have hk : 1 / 2 ≤ 1 - 8 * share2 kind := by cases kind <;> norm_num [share2]
    have q := mul_le_mul_of_nonneg_right hk sp
    have lower : cp / (4 * tm) * S2 N M 0 0 (fun i j => (T t i j - tm) * (T t i j - tm)) ≤ stored2 kind N M 0 0 cp tm (T t) := by
      unfold stored2
      rw [show cp / (4 * tm) = cp / (2 * tm) * (1 / 2) by field_simp; norm_num, mul_assoc]
      exact mul_le_mul_of_nonneg_left (le_trans q pos) (by positivity)
    linarith
  · obtain ⟨hp, hh, hd⟩ := c108_balance kind 'l' N M 0 0 eps scale dx dy fa tm L cp D 1 (mob t) phi T t htm.ne' hcp.ne' r.phase r.temp
      (r.moves t ht) E hE
    have h1 : hp = fun _ _ => 1 := by
      funext i j; exact (Option.some.inj ((slope_linear _).symm.trans (hh i j))).symm
    subst h1
    refine ⟨_, hd, ?_⟩
    have z : (S2 N M 0 0 fun i j => mob t i j * netForce2 kind eps scale dx dy tm L (fun _ _ => 1) (T t) (phi t) i j
              * smooth2 (share2 kind) (fun i j => T t i j - tm) i j * (1 - 1)) = 0 := by
      rw [S2_congr (g := fun _ _ => 0) fun i j => by ring]
      simp [S2]
    rw [z, mul_zero, add_zero, one_mul]
    have p1 : m0 * (S2 N M 0 0 fun i j => netForce2 kind eps scale dx dy tm L (fun _ _ => 1) (T t) (phi t) i j ^ 2) ≤
        S2 N M 0 0 fun i j => mob t i j * netForce2 kind eps scale dx dy tm L (fun _ _ => 1) (T t) (phi t) i j ^ 2 := by
      rw [← S2_mul]
      exact S2_le fun i j => mul_le_mul_of_nonneg_right (hm t ht i j).1 (sq_nonneg _)
    have p2 := covar_smooth_ge (lo0 := 0) (lo1 := 0) (share2_bounds kind).1 dx dy _ (upt t)
    have k : 0 ≤ cp / tm * D := by positivity
    have p3 := mul_le_mul_of_nonneg_left p2 k
    simp only [sub_sub_sub_cancel_right] at p3
    linarith

/-- Both fields stay bounded and Lipschitz in time. -/
theorem tame (hN : 0 < N) (hM : 0 < M) (hs : 0 < scale) (htm : 0 < tm) (hcp : 0 < cp) (hD : 0 ≤ D)
    (r : Run2 kind 'l' N M eps scale dx dy fa tm L cp D mob phi T) :
    (∀ i j, Tame fun t => phi t i j) ∧ ∀ i j, Tame fun t => T t i j := by
  obtain ⟨V, m0, hm0, low, rate⟩ := basics htm hcp hD r
  have k8 : 0 ≤ 1 - 8 * share2 kind := by linarith [(share2_bounds kind).2]
  have anti : AntitoneOn V (Set.Ici 0) := by
    choose! d hd1 hd2 using rate
    refine antitoneOn_of_deriv_nonpos (convex_Ici 0) (fun x hx => (hd1 x hx).continuousAt.continuousWithinAt)
      (fun x hx => ?_) (fun x hx => ?_)
    · rw [interior_Ici] at hx
      exact (hd1 x (le_of_lt hx)).differentiableAt.differentiableWithinAt
    · rw [interior_Ici] at hx
      rw [(hd1 x (le_of_lt hx)).deriv]
      refine (hd2 x (le_of_lt hx)).trans (neg_nonpos.2 (add_nonneg (mul_nonneg hm0.le (S2_nonneg fun i j => sq_nonneg _)) ?_))
      exact mul_nonneg (by positivity) (mul_nonneg k8 (add_nonneg
        (mul_nonneg (one_div_nonneg.2 (mul_self_nonneg _)) (S2_nonneg fun i j => mul_self_nonneg _))
        (mul_nonneg (one_div_nonneg.2 (mul_self_nonneg _)) (S2_nonneg fun i j => mul_self_nonneg _))))
  have top : ∀ t, 0 ≤ t → V t ≤ V 0 := fun t ht => anti (Set.mem_Ici.2 le_rfl) (Set.mem_Ici.2 ht) ht
  have w0 : ∀ t i j, 0 ≤ scale * (16 * phi t i j * phi t i j * (1 - phi t i j) * (1 - phi t i j)) := by
    intro t i j
    have := sq_nonneg (phi t i j * (1 - phi t i j))
    refine mul_nonneg hs.le ?_
    nlinarith
  have bphi : ∀ i j, Bounded fun t => phi t i j := by
    intro i j
    refine ⟨|V 0 / (16 * scale)| + 2, fun t ht => well_bounds _ _ ?_⟩
    have c := cell_le_S2 (lo0 := 0) (lo1 := 0) hN hM
      (f := fun i j => scale * (16 * phi t i j * phi t i j * (1 - phi t i j) * (1 - phi t i j)))
      ⟨fun i j => by beta_reduce; rw [(r.phase t).1], fun i j => by beta_reduce; rw [(r.phase t).2]⟩ (w0 t) i j
    have p : 0 ≤ cp / (4 * tm) * S2 N M 0 0 (fun i j => (T t i j - tm) * (T t i j - tm)) :=
      mul_nonneg (by positivity) (S2_nonneg fun i j => mul_self_nonneg _)
    rw [le_div_iff₀ (by positivity)]
    linarith [low t, top t ht]
  have bT : ∀ i j, Bounded fun t => T t i j := by
    intro i j
    refine ⟨tm + 1 + V 0 / (cp / (4 * tm)), fun t ht => ?_⟩
    have c := cell_le_S2 (lo0 := 0) (lo1 := 0) hN hM (f := fun i j => (T t i j - tm) * (T t i j - tm))
      ⟨fun i j => by beta_reduce; rw [(r.temp t).1], fun i j => by beta_reduce; rw [(r.temp t).2]⟩ (fun i j => mul_self_nonneg _) i j
    have p : 0 ≤ S2 N M 0 0 (fun i j => scale * (16 * phi t i j * phi t i j * (1 - phi t i j) * (1 - phi t i j))) :=
      S2_nonneg (w0 t)
    have q : (T t i j - tm) * (T t i j - tm) ≤ V 0 / (cp / (4 * tm)) := by
      rw [le_div_iff₀ (by positivity)]
      have := mul_le_mul_of_nonneg_left c (show 0 ≤ cp / (4 * tm) by positivity)
      linarith [low t, top t ht]
    rw [abs_le]
    constructor <;> nlinarith [sq_nonneg (T t i j - tm - 1), sq_nonneg (T t i j - tm + 1)]
  obtain ⟨m0', m1, hm0', hm⟩ := r.mobility
  have bm : ∀ i j, Bounded fun t => mob t i j := fun i j => ⟨m1, fun t ht => by
    rw [abs_of_nonneg (hm0'.le.trans (hm t ht i j).1)]; exact (hm t ht i j).2⟩
  have bF : ∀ i j, Bounded fun t => netForce2 kind eps scale dx dy tm L (fun _ _ => 1) (T t) (phi t) i j := by
    intro i j
    unfold netForce2 div2 gradFluxX gradFluxY smooth2
    repeat' first | exact bphi _ _ | exact bT _ _ | exact Bounded.const _ | apply Bounded.sub | apply Bounded.add | apply Bounded.mul
  refine ⟨fun i j => Tame.of_deriv (bphi i j) (fun t ht => (rates htm r t ht i j).1) ((bm i j).mul (bF i j)),
    fun i j => Tame.of_deriv (bT i j) (fun t ht => (rates htm r t ht i j).2) (Bounded.add ?_ ((Bounded.const _).mul ((bm i j).mul (bF i j))))⟩
  unfold laplacian2
  repeat' first | exact bT _ _ | exact Bounded.const _ | apply Bounded.sub | apply Bounded.add | apply Bounded.mul

theorem force_tame (hN : 0 < N) (hM : 0 < M) (hs : 0 < scale) (htm : 0 < tm) (hcp : 0 < cp) (hD : 0 ≤ D)
    (r : Run2 kind 'l' N M eps scale dx dy fa tm L cp D mob phi T) (i j : ℤ) :
    Tame fun t => netForce2 kind eps scale dx dy tm L (fun _ _ => 1) (T t) (phi t) i j := by
  obtain ⟨tphi, tT⟩ := tame hN hM hs htm hcp hD r
  unfold netForce2 div2 gradFluxX gradFluxY smooth2
  repeat' first | exact tphi _ _ | exact tT _ _ | exact Tame.const _ | apply Tame.sub | apply Tame.add | apply Tame.mul

theorem netForce_periodic (kind : Kind) (N M : ℕ) (eps scale dx dy tm L : ℝ) (T phi : Field2) (hT : Periodic2 N M T)
    (hp : Periodic2 N M phi) : Periodic2 N M (netForce2 kind eps scale dx dy tm L (fun _ _ => 1) T phi) := by
  refine ⟨fun i j => ?_, fun i j => ?_⟩ <;> unfold netForce2 div2 gradFluxX gradFluxY smooth2
  · rw [show i + (N : ℤ) - 1 = i - 1 + N by ring, show i + (N : ℤ) + 1 = i + 1 + N by ring]
    simp only [hT.1, hp.1, show i + 1 + (N : ℤ) - 1 = i + 1 - 1 + N by ring]
  · rw [show j + (M : ℤ) - 1 = j - 1 + M by ring, show j + (M : ℤ) + 1 = j + 1 + M by ring]
    simp only [hT.2, hp.2, show j + 1 + (M : ℤ) - 1 = j + 1 - 1 + M by ring]

/-- Forces and differences of temperature fade. -/
theorem fade (hN : 0 < N) (hM : 0 < M) (hx : dx ≠ 0) (hy : dy ≠ 0) (hs : 0 < scale) (htm : 0 < tm) (hcp : 0 < cp) (hD : 0 < D)
    (r : Run2 kind 'l' N M eps scale dx dy fa tm L cp D mob phi T) (i j : ℤ) :
    Tendsto (fun t => netForce2 kind eps scale dx dy tm L (fun _ _ => 1) (T t) (phi t) i j) atTop (𝓝 0) ∧
    Tendsto (fun t => T t (i + 1) j - T t i j) atTop (𝓝 0) ∧ Tendsto (fun t => T t i (j + 1) - T t i j) atTop (𝓝 0) := by
  obtain ⟨V, m0, hm0, low, rate⟩ := basics htm hcp hD.le r
  obtain ⟨tphi, tT⟩ := tame hN hM hs htm hcp hD.le r
  have tF := force_tame hN hM hs htm hcp hD.le r
  set κ := cp / tm * D with hκ
  have kpos : 0 < κ := by positivity
  have k8 : 0 < 1 - 8 * share2 kind := by linarith [(share2_bounds kind).2]
  have cx : 0 < 1 / (dx * dx) := one_div_pos.2 (mul_self_pos.2 hx)
  have cy : 0 < 1 / (dy * dy) := one_div_pos.2 (mul_self_pos.2 hy)
  set A : ℝ → ℝ := fun t => S2 N M 0 0 fun i j => netForce2 kind eps scale dx dy tm L (fun _ _ => 1) (T t) (phi t) i j ^ 2 with hA
  set B : ℝ → ℝ := fun t => S2 N M 0 0 (fun i j => (T t (i + 1) j - T t i j) * (T t (i + 1) j - T t i j)) with hB
  set C : ℝ → ℝ := fun t => S2 N M 0 0 (fun i j => (T t i (j + 1) - T t i j) * (T t i (j + 1) - T t i j)) with hC
  have A0 : ∀ t, 0 ≤ A t := fun t => S2_nonneg fun i j => sq_nonneg _
  have B0 : ∀ t, 0 ≤ B t := fun t => S2_nonneg fun i j => mul_self_nonneg _
  have C0 : ∀ t, 0 ≤ C t := fun t => S2_nonneg fun i j => mul_self_nonneg _
  have tA : Tame A := S2_tame fun i j => (tF i j).pow_two
  have tB : Tame B := S2_tame fun i j => ((tT _ _).sub (tT _ _)).mul ((tT _ _).sub (tT _ _))
  have tC : Tame C := S2_tame fun i j => ((tT _ _).sub (tT _ _)).mul ((tT _ _).sub (tT _ _))
  set q : ℝ → ℝ := fun t => m0 * A t + κ * ((1 - 8 * share2 kind) * (1 / (dx * dx) * B t + 1 / (dy * dy) * C t)) with hq
  have q1 : ∀ t, m0 * A t ≤ q t := fun t => le_add_of_nonneg_right (mul_nonneg kpos.le (mul_nonneg k8.le
    (add_nonneg (mul_nonneg cx.le (B0 t)) (mul_nonneg cy.le (C0 t)))))
  have q2 : ∀ t, κ * ((1 - 8 * share2 kind) * (1 / (dx * dx))) * B t ≤ q t := fun t => by
    have a := mul_nonneg hm0.le (A0 t)
    have b := mul_nonneg kpos.le (mul_nonneg k8.le (mul_nonneg cy.le (C0 t)))
    simp only [hq]
    linarith
  have q3 : ∀ t, κ * ((1 - 8 * share2 kind) * (1 / (dy * dy))) * C t ≤ q t := fun t => by
    have a := mul_nonneg hm0.le (A0 t)
    have b := mul_nonneg kpos.le (mul_nonneg k8.le (mul_nonneg cx.le (B0 t)))
    simp only [hq]
    linarith
  have tq : Tame q := ((Tame.const _).mul tA).add ((Tame.const _).mul ((Tame.const _).mul
    (((Tame.const _).mul tB).add ((Tame.const _).mul tC))))
  have V0 : ∀ t, 0 ≤ t → 0 ≤ V t := fun t _ => by
    refine le_trans (add_nonneg (S2_nonneg fun i j => mul_nonneg hs.le ?_)
      (mul_nonneg (by positivity) (S2_nonneg fun i j => mul_self_nonneg _))) (low t)
    nlinarith [sq_nonneg (phi t i j * (1 - phi t i j))]
  have lim : Tendsto q atTop (𝓝 0) := fades 0 V0 rate (fun t _ => (mul_nonneg hm0.le (A0 t)).trans (q1 t)) tq
  have part : ∀ (c : ℝ) (f : ℝ → ℝ), 0 < c → (∀ t, 0 ≤ f t) → (∀ t, c * f t ≤ q t) → Tendsto f atTop (𝓝 0) := by
    intro c f hc f0 hf
    refine squeeze_zero f0 (fun t => (le_div_iff₀ hc).2 (by rw [mul_comm]; exact hf t)) (g := fun t => q t / c) ?_
    have := lim.div_const c
    rwa [zero_div] at this
  have lA := part m0 A hm0 A0 q1
  have lB := part _ B (mul_pos kpos (mul_pos k8 cx)) B0 q2
  have lC := part _ C (mul_pos kpos (mul_pos k8 cy)) C0 q3
  refine ⟨tendsto_of_sq (squeeze_zero (fun t => sq_nonneg _) (fun t => ?_) lA),
    tendsto_of_sq (squeeze_zero (fun t => sq_nonneg _) (fun t => ?_) lB),
    tendsto_of_sq (squeeze_zero (fun t => sq_nonneg _) (fun t => ?_) lC)⟩
  · have np := netForce_periodic kind N M eps scale dx dy tm L (T t) (phi t) (r.temp t) (r.phase t)
    exact cell_le_S2 (lo0 := 0) (lo1 := 0) hN hM (f := fun i j => netForce2 kind eps scale dx dy tm L (fun _ _ => 1) (T t) (phi t) i j ^ 2)
      ⟨fun i j => by beta_reduce; rw [np.1], fun i j => by beta_reduce; rw [np.2]⟩ (fun i j => sq_nonneg _) i j
  · have np := diffX_periodic (r.temp t)
    rw [sq]
    exact cell_le_S2 (lo0 := 0) (lo1 := 0) hN hM (f := fun i j => (T t (i + 1) j - T t i j) * (T t (i + 1) j - T t i j))
      ⟨fun i j => by have := np.1 i j; simp only at this ⊢; rw [this], fun i j => by have := np.2 i j; simp only at this ⊢; rw [this]⟩
      (fun i j => mul_self_nonneg _) i j
  · have np := diffY_periodic (r.temp t)
    rw [sq]
    exact cell_le_S2 (lo0 := 0) (lo1 := 0) hN hM (f := fun i j => (T t i (j + 1) - T t i j) * (T t i (j + 1) - T t i j))
      ⟨fun i j => by have := np.1 i j; simp only at this ⊢; rw [this], fun i j => by have := np.2 i j; simp only at this ⊢; rw [this]⟩
      (fun i j => mul_self_nonneg _) i j

end

/-! ## C151 -/

/-- **C151** (linear interpolation, 2D): the run comes to rest.  As time goes on the rate of the phase in every cell tends to zero, the
rate of the temperature in every cell tends to zero, and neighbouring cells get the same temperature.  Missing from the full claim: the
other interpolations with the heat equation, whose sum of C108 may grow (`c108_violation_interpolation`). -/
theorem c151_rest_partial (kind : Kind) (N M : ℕ) (hN : 0 < N) (hM : 0 < M) (eps scale dx dy fa tm L cp D : ℝ)
    (mob phi T : ℝ → Field2) (hx : dx ≠ 0) (hy : dy ≠ 0) (hs : 0 < scale) (htm : 0 < tm) (hcp : 0 < cp) (hD : 0 < D)
    (r : Run2 kind 'l' N M eps scale dx dy fa tm L cp D mob phi T) (i j : ℤ) :
    Tendsto (fun t => deriv (fun s => phi s i j) t) atTop (𝓝 0) ∧ Tendsto (fun t => deriv (fun s => T s i j) t) atTop (𝓝 0) ∧
      Tendsto (fun t => T t (i + 1) j - T t i j) atTop (𝓝 0) ∧ Tendsto (fun t => T t i (j + 1) - T t i j) atTop (𝓝 0) := by
  have f := fade hN hM hx hy hs htm hcp hD r
  obtain ⟨m0, m1, hm0, hm⟩ := r.mobility
  have bm : Bounded fun t => mob t i j := ⟨m1, fun t ht => by
    rw [abs_of_nonneg (hm0.le.trans (hm t ht i j).1)]; exact (hm t ht i j).2⟩
  have l1 := bounded_mul_tendsto bm (f i j).1
  refine ⟨l1.congr' ?_, ?_, (f i j).2⟩
  · filter_upwards [eventually_ge_atTop 0] with t ht
    exact ((rates htm r t ht i j).1.deriv).symm
  · have a := (f i j).2.1
    have b := (f (i - 1) j).2.1
    have c := (f i j).2.2
    have d := (f i (j - 1)).2.2
    simp only [sub_add_cancel] at b d
    have l2 : Tendsto (fun t => laplacian2 dx dy D (T t) i j) atTop (𝓝 0) := by
      have := (((a.sub b).mul_const (1 / (dx * dx))).add ((c.sub d).mul_const (1 / (dy * dy)))).const_mul D
      simp only [sub_zero, zero_mul, add_zero, mul_zero] at this
      refine this.congr fun t => ?_
      simp only [laplacian2]
      ring
    have l3 := l2.add (l1.const_mul (L / cp))
    simp only [mul_zero, add_zero] at l3
    refine l3.congr' ?_
    filter_upwards [eventually_ge_atTop 0] with t ht
    exact ((rates htm r t ht i j).2.deriv).symm

/-- Any two cells get the same temperature. -/
theorem same_temperature {T : ℝ → Field2} (h : ∀ i j, Tendsto (fun t => T t (i + 1) j - T t i j) atTop (𝓝 0) ∧
    Tendsto (fun t => T t i (j + 1) - T t i j) atTop (𝓝 0)) (i j : ℤ) (a b : ℕ) :
    Tendsto (fun t => T t (i + a) (j + b) - T t i j) atTop (𝓝 0) := by
  have ha : ∀ (a : ℕ) i j, Tendsto (fun t => T t (i + a) j - T t i j) atTop (𝓝 0) := by
    intro a
    induction a with
    | zero => intro i j; simp
    | succ a ih =>
      intro i j
      have := (ih i j).add (h (i + a) j).1
      rw [add_zero] at this
      refine this.congr fun t => ?_
      rw [show i + ((a + 1 : ℕ) : ℤ) = i + a + 1 by push_cast; ring]
      ring
  have hb : ∀ (b : ℕ) i j, Tendsto (fun t => T t i (j + b) - T t i j) atTop (𝓝 0) := by
    intro b
    induction b with
    | zero => intro i j; simp
    | succ b ih =>
      intro i j
      have := (ih i j).add (h i (j + b)).2
      rw [add_zero] at this
      refine this.congr fun t => ?_
      rw [show j + ((b + 1 : ℕ) : ℤ) = j + b + 1 by push_cast; ring]
      ring
  have := (ha a i (j + b)).add (hb b i j)
  rw [add_zero] at this
  exact this.congr fun t => by ring

theorem mean2_eq (N M : ℕ) (u : Field2) : mean2 N M u = S2 N M 0 0 u / (N * M) := by
  simp [mean2, S2]

/-- Heat is neither made nor lost: the mean temperature follows the mean phase (any interpolation). -/
theorem heat_kept (kind : Kind) (interp : Char) (N M : ℕ) (hN : 0 < N) (hM : 0 < M) (eps scale dx dy fa tm L cp D : ℝ)
    (mob phi T : ℝ → Field2) (r : Run2 kind interp N M eps scale dx dy fa tm L cp D mob phi T) (t : ℝ) (ht : 0 ≤ t) :
    mean2 N M (T t) = mean2 N M (T 0) + L / cp * (mean2 N M (phi t) - mean2 N M (phi 0)) := by
  have der : ∀ s, 0 ≤ s → HasDerivAt (fun s => S2 N M 0 0 (T s) - L / cp * S2 N M 0 0 (phi s)) 0 s := by
    intro s hs
    obtain ⟨v, hv, -, hTd⟩ := r.moves s hs
    have d1 := S2_deriv (N := N) (M := M) (lo0 := 0) (lo1 := 0) hTd
    have d2 := S2_deriv (N := N) (M := M) (lo0 := 0) (lo1 := 0) hv
    refine (d1.sub (d2.const_mul (L / cp))).congr_deriv ?_
    rw [← S2_mul, ← S2_sub]
    have parts := parts2 N M 0 0 dx dy D (fun _ _ => 1) (T s) ⟨fun _ _ => rfl, fun _ _ => rfl⟩ (r.temp s)
    have z : covar2 N M 0 0 dx dy (fun _ _ => 1) (T s) = 0 := by simp [covar2]
    rw [z, mul_zero] at parts
    refine Eq.trans ?_ parts
    refine Finset.sum_congr rfl fun b _ => Finset.sum_congr rfl fun a _ => ?_
    simp only [rhsTemp2, if_true]
    ring
  have const : S2 N M 0 0 (T t) - L / cp * S2 N M 0 0 (phi t) = S2 N M 0 0 (T 0) - L / cp * S2 N M 0 0 (phi 0) := by
    have := Convex.norm_image_sub_le_of_norm_hasDerivWithin_le (f := fun s => S2 N M 0 0 (T s) - L / cp * S2 N M 0 0 (phi s))
      (f' := fun _ => 0) (C := 0) (s := Set.Ici 0) (x := 0) (y := t) (fun x hx => (der x hx).hasDerivWithinAt)
      (fun x _ => by simp) (convex_Ici 0) (Set.mem_Ici.2 le_rfl) ht
    rw [zero_mul, norm_le_zero_iff] at this
    exact sub_eq_zero.1 this
  have hN' : (N : ℝ) ≠ 0 := by exact_mod_cast hN.ne'
  have hM' : (M : ℝ) ≠ 0 := by exact_mod_cast hM.ne'
  simp only [mean2_eq]
  rw [show S2 N M 0 0 (T t) = L / cp * S2 N M 0 0 (phi t) + (S2 N M 0 0 (T 0) - L / cp * S2 N M 0 0 (phi 0)) by linarith]
  field_simp
  ring

/-- **C151** (linear interpolation, 2D): the final temperature.  In every cell the temperature approaches the one the heat balance
gives: the starting mean plus the latent heat of what has solidified since.  Missing: the other interpolations. -/
theorem c151_temperature_partial (kind : Kind) (N M : ℕ) (hN : 0 < N) (hM : 0 < M) (eps scale dx dy fa tm L cp D : ℝ)
    (mob phi T : ℝ → Field2) (hx : dx ≠ 0) (hy : dy ≠ 0) (hs : 0 < scale) (htm : 0 < tm) (hcp : 0 < cp) (hD : 0 < D)
    (r : Run2 kind 'l' N M eps scale dx dy fa tm L cp D mob phi T) (i j : ℤ) :
    Tendsto (fun t => T t i j - (mean2 N M (T 0) + L / cp * (mean2 N M (phi t) - mean2 N M (phi 0)))) atTop (𝓝 0) := by
  have f := fun i j => (fade hN hM hx hy hs htm hcp hD r i j).2
  have e : Tendsto (fun t => T t i j - mean2 N M (T t)) atTop (𝓝 0) := by
    have hN' : (N : ℝ) ≠ 0 := by exact_mod_cast hN.ne'
    have hM' : (M : ℝ) ≠ 0 := by exact_mod_cast hM.ne'
    have s : ∀ t, T t i j - mean2 N M (T t) = -(∑ b ∈ Finset.range M, ∑ a ∈ Finset.range N, (T t (i + (a : ℕ)) (j + (b : ℕ)) - T t i j))
        / (N * M) := by
      intro t
      have sh : S2 N M i j (T t) = S2 N M 0 0 (T t) := by
        have key : ∀ (n : ℕ) (lo0 lo1 : ℤ), S2 N M (lo0 + n) lo1 (T t) = S2 N M lo0 lo1 (T t) := by
          intro n
          induction n with
          | zero => intro lo0 lo1; simp
          | succ n ih =>
            intro lo0 lo1
            rw [← ih lo0 lo1, ← S2_xp (lo0 := lo0 + n) (lo1 := lo1) (r.temp t)]
            unfold S2
            refine Finset.sum_congr rfl fun b _ => Finset.sum_congr rfl fun a _ => ?_
            congr 1
            push_cast
            ring
        have key' : ∀ (n : ℕ) (lo0 lo1 : ℤ), S2 N M lo0 (lo1 + n) (T t) = S2 N M lo0 lo1 (T t) := by
          intro n
          induction n with
          | zero => intro lo0 lo1; simp
          | succ n ih =>
            intro lo0 lo1
            rw [← ih lo0 lo1, ← S2_yp (lo0 := lo0) (lo1 := lo1 + n) (r.temp t)]
            unfold S2
            refine Finset.sum_congr rfl fun b _ => Finset.sum_congr rfl fun a _ => ?_
            congr 1
            push_cast
            ring
        have x : S2 N M i j (T t) = S2 N M 0 j (T t) := by
          obtain ⟨n, rfl | rfl⟩ := Int.eq_nat_or_neg i
          · simpa using key n 0 j
          · simpa using (key n (-(n : ℤ)) j).symm
        have y : S2 N M 0 j (T t) = S2 N M 0 0 (T t) := by
          obtain ⟨n, rfl | rfl⟩ := Int.eq_nat_or_neg j
          · simpa using key' n 0 0
          · simpa using (key' n 0 (-(n : ℤ))).symm
        rw [x, y]
      rw [mean2_eq, ← sh]
      unfold S2
      simp only [Finset.sum_sub_distrib, Finset.sum_const, Finset.card_range, nsmul_eq_mul]
      field_simp
      ring
    simp only [s]
    have := ((tendsto_finsetSum (Finset.range M) fun b _ => tendsto_finsetSum (Finset.range N) fun a _ =>
      same_temperature f i j a b).neg).div_const ((N : ℝ) * M)
    simpa using this
  refine e.congr' ?_
  filter_upwards [eventually_ge_atTop 0] with t ht
  rw [heat_kept kind 'l' N M hN hM eps scale dx dy fa tm L cp D mob phi T r t ht]

theorem rate_some (kind : Kind) (eps scale dx dy fa tm L : ℝ) (htm : tm ≠ 0) (mob T phi : Field2) (i j : ℤ) :
    phaseRate2 kind 'l' eps scale dx dy fa tm L mob T phi i j =
      some (mob i j * netForce2 kind eps scale dx dy tm L (fun _ _ => 1) T phi i j) := by
  obtain ⟨x, hx⟩ : ∃ x, phaseRate2 kind 'l' eps scale dx dy fa tm L mob T phi i j = some x := by
    cases kind <;> simp [MeltFlow.phaseRate2, pbgCell, derivWellFunc, addForce2, deltaTemperature, fenergyCell, slope_linear]
  obtain ⟨hp, e1, e2⟩ := rate_eq kind 'l' eps scale dx dy fa tm L htm mob T phi i j x hx
  have : hp = 1 := (Option.some.inj ((slope_linear _).symm.trans e1)).symm
  subst this
  rw [hx, e2]

/-- **C151** (linear interpolation, 2D): what a run comes to.  Along some sequence of times going to infinity the fields converge in
every cell; and whenever they converge along such a sequence, the limit is a state in which no cell moves, whatever the mobility, and
the temperature is uniform.  Missing: the other interpolations. -/
theorem c151_limit_partial (kind : Kind) (N M : ℕ) (hN : 0 < N) (hM : 0 < M) (eps scale dx dy fa tm L cp D : ℝ)
    (mob phi T : ℝ → Field2) (hx : dx ≠ 0) (hy : dy ≠ 0) (hs : 0 < scale) (htm : 0 < tm) (hcp : 0 < cp) (hD : 0 < D)
    (r : Run2 kind 'l' N M eps scale dx dy fa tm L cp D mob phi T) :
    (∃ (τ : ℕ → ℝ) (φ' T' : Field2), Tendsto τ atTop atTop ∧ (∀ i j, Tendsto (fun n => phi (τ n) i j) atTop (𝓝 (φ' i j))) ∧
      ∀ i j, Tendsto (fun n => T (τ n) i j) atTop (𝓝 (T' i j))) ∧
    ∀ (τ : ℕ → ℝ) (φ' T' : Field2), Tendsto τ atTop atTop → (∀ i j, Tendsto (fun n => phi (τ n) i j) atTop (𝓝 (φ' i j))) →
      (∀ i j, Tendsto (fun n => T (τ n) i j) atTop (𝓝 (T' i j))) →
      (∀ mob' i j, phaseRate2 kind 'l' eps scale dx dy fa tm L mob' T' φ' i j = some 0) ∧
        ∀ i j, T' (i + 1) j = T' i j ∧ T' i (j + 1) = T' i j := by
  have f := fade hN hM hx hy hs htm hcp hD r
  constructor
  · obtain ⟨tphi, tT⟩ := tame hN hM hs htm hcp hD.le r
    choose P hP using fun i j => (tphi i j).1
    choose Q hQ using fun i j => (tT i j).1
    have cP : IsCompact (Set.pi Set.univ fun i : ℤ => Set.pi Set.univ fun j : ℤ => Set.Icc (-P i j) (P i j)) :=
      isCompact_univ_pi fun i => isCompact_univ_pi fun j => isCompact_Icc
    have cQ : IsCompact (Set.pi Set.univ fun i : ℤ => Set.pi Set.univ fun j : ℤ => Set.Icc (-Q i j) (Q i j)) :=
      isCompact_univ_pi fun i => isCompact_univ_pi fun j => isCompact_Icc
    obtain ⟨⟨φ', T'⟩, -, g, hg, hlim⟩ := (cP.prod cQ).tendsto_subseq (x := fun n : ℕ => (phi (n : ℝ), T (n : ℝ))) fun n =>
      ⟨fun i _ j _ => abs_le.1 (hP i j n n.cast_nonneg), fun i _ j _ => abs_le.1 (hQ i j n n.cast_nonneg)⟩
    have h1 := (Prod.tendsto_iff _ _).1 hlim
    refine ⟨fun n => (g n : ℝ), φ', T', tendsto_natCast_atTop_atTop.comp hg.tendsto_atTop, fun i j => ?_, fun i j => ?_⟩
    · exact tendsto_pi_nhds.1 (tendsto_pi_nhds.1 h1.1 i) j
    · exact tendsto_pi_nhds.1 (tendsto_pi_nhds.1 h1.2 i) j
  · intro τ φ' T' hτ hφ hT
    refine ⟨fun mob' i j => ?_, fun i j => ?_⟩
    · have cont : Continuous fun p : (ℤ → ℤ → ℝ) × (ℤ → ℤ → ℝ) => netForce2 kind eps scale dx dy tm L (fun _ _ => 1) p.1 p.2 i j := by
        unfold netForce2 div2 gradFluxX gradFluxY smooth2
        fun_prop
      have hlim : Tendsto (fun n => ((T (τ n) : ℤ → ℤ → ℝ), (phi (τ n) : ℤ → ℤ → ℝ))) atTop (𝓝 (T', φ')) :=
        (Prod.tendsto_iff _ _).2 ⟨tendsto_pi_nhds.2 fun i => tendsto_pi_nhds.2 fun j => hT i j,
          tendsto_pi_nhds.2 fun i => tendsto_pi_nhds.2 fun j => hφ i j⟩
      have z := tendsto_nhds_unique ((cont.tendsto _).comp hlim) ((f i j).1.comp hτ)
      rw [rate_some kind eps scale dx dy fa tm L htm.ne' mob' T' φ' i j]
      simp only at z
      rw [z, mul_zero]
    · exact ⟨sub_eq_zero.1 (tendsto_nhds_unique ((hT (i + 1) j).sub (hT i j)) ((f i j).2.1.comp hτ)),
        sub_eq_zero.1 (tendsto_nhds_unique ((hT i (j + 1)).sub (hT i j)) ((f i j).2.2.comp hτ))⟩

/-! ## A run at given energies of the phases -/

/-- A run from time 0 on of a closed sample in which the free energies of the two phases are given cell by cell. -/
structure IsoRun2 (interp : Char) (N M : ℕ) (eps scale dx dy : ℝ) (fl fa : Field2) (mob phi : ℝ → Field2) : Prop where
  phase : ∀ t, Periodic2 N M (phi t)
  moves : ∀ t, 0 ≤ t → ∀ i j, ∃ r, PhaseRHS.phaseRate2 interp scale dx dy (gradFluxX eps dx (phi t)) (gradFluxY eps dy (phi t)) fl fa
    (phi t) i j = some r ∧ HasDerivAt (fun s => phi s i j) (mob t i j * r) t
  mobility : ∃ m0 m1 : ℝ, 0 < m0 ∧ ∀ t, 0 ≤ t → ∀ i j, m0 ≤ mob t i j ∧ mob t i j ≤ m1

theorem clamp_mem (x : ℝ) : 0 ≤ clamp x ∧ clamp x ≤ 1 :=
  ⟨le_max_left _ _, max_le zero_le_one (min_le_left _ _)⟩

theorem tame_clamp {f : ℝ → ℝ} (hf : Tame f) : Tame fun t => clamp (f t) := by
  obtain ⟨-, K, hK⟩ := hf
  refine ⟨⟨1, fun t _ => abs_le.2 ⟨by linarith [(clamp_mem (f t)).1], (clamp_mem (f t)).2⟩⟩, K, fun s t hs ht => le_trans ?_ (hK s t hs ht)⟩
  unfold clamp
  beta_reduce
  rw [max_comm, max_comm 0 (min 1 (f t)), min_comm, min_comm 1 (f t)]
  exact (abs_sup_sub_sup_le_abs _ _ _).trans (abs_inf_sub_inf_le_abs _ _ _)

theorem slope_tame {interp : Char} (hi : interp = 'p' ∨ interp = 'h') {f g : ℝ → ℝ} (hf : Tame f)
    (h : ∀ t, derivInterpFunc interp (f t) = some (g t)) : Tame g := by
  have c := tame_clamp hf
  rcases hi with rfl | rfl
  · have e : g = fun t => 30 * clamp (f t) * clamp (f t) * (1 - clamp (f t)) * (1 - clamp (f t)) := by
      funext t
      have := h t
      simp [derivInterpFunc] at this
      exact this.symm
    rw [e]
    repeat' first | exact c | exact Tame.const _ | apply Tame.sub | apply Tame.mul
  · have e : g = fun t => 6 * clamp (f t) * (1 - clamp (f t)) := by
      funext t
      have := h t
      simp [derivInterpFunc] at this
      exact this.symm
    rw [e]
    repeat' first | exact c | exact Tame.const _ | apply Tame.sub | apply Tame.mul

theorem slope_bounded {interp : Char} (hi : interp = 'p' ∨ interp = 'h') (f g : ℝ → ℝ)
    (h : ∀ t, derivInterpFunc interp (f t) = some (g t)) : Bounded g := by
  have c : Bounded fun t => clamp (f t) :=
    ⟨1, fun t _ => abs_le.2 ⟨by linarith [(clamp_mem (f t)).1], (clamp_mem (f t)).2⟩⟩
  rcases hi with rfl | rfl
  · have e : g = fun t => 30 * clamp (f t) * clamp (f t) * (1 - clamp (f t)) * (1 - clamp (f t)) := by
      funext t
      have := h t
      simp [derivInterpFunc] at this
      exact this.symm
    rw [e]
    repeat' first | exact c | exact Bounded.const _ | apply Bounded.sub | apply Bounded.mul
  · have e : g = fun t => 6 * clamp (f t) * (1 - clamp (f t)) := by
      funext t
      have := h t
      simp [derivInterpFunc] at this
      exact this.symm
    rw [e]
    repeat' first | exact c | exact Bounded.const _ | apply Bounded.sub | apply Bounded.mul

theorem bulk_ge {interp : Char} (hi : interp = 'p' ∨ interp = 'h') (fl fa x : ℝ) :
    ∃ e, bulkCell interp fl fa x = some e ∧ -(|fl| + |fa|) ≤ e := by
  have key : ∀ h : ℝ, 0 ≤ h → h ≤ 1 → -(|fl| + |fa|) ≤ (1 - h) * fl + h * fa := by
    intro h h0 h1
    have a := mul_le_mul_of_nonneg_left (neg_abs_le fl) (sub_nonneg.2 h1)
    have b := mul_le_mul_of_nonneg_left (neg_abs_le fa) h0
    nlinarith [abs_nonneg fl, abs_nonneg fa]
  obtain ⟨c0, c1⟩ := clamp_mem x
  rcases hi with rfl | rfl
  · refine ⟨_, by simp only [bulkCell, interpFunc]; norm_num; rfl, key _ ?_ ?_⟩
    · have : 0 ≤ 10 - 15 * clamp x + 6 * clamp x * clamp x := by nlinarith [sq_nonneg (clamp x - 1)]
      positivity
    · nlinarith [pow_nonneg (sub_nonneg.2 c1) 3, mul_nonneg (pow_nonneg (sub_nonneg.2 c1) 3) c0,
        mul_nonneg (pow_nonneg (sub_nonneg.2 c1) 3) (mul_nonneg c0 c0)]
  · refine ⟨_, by simp only [bulkCell, interpFunc]; norm_num; rfl, key _ ?_ ?_⟩
    · have : 0 ≤ 3 - 2 * clamp x := by linarith
      positivity
    · nlinarith [mul_nonneg (sq_nonneg (1 - clamp x)) c0, sq_nonneg (1 - clamp x)]

theorem iso_ge {interp : Char} (hi : interp = 'p' ∨ interp = 'h') (N M : ℕ) (eps scale dx dy : ℝ) (fl fa u : Field2)
    (hu : Periodic2 N M u) (e : ℝ) (h : energy2 interp eps scale dx dy fl fa (fun _ => 1) 0 (0 + N - 1) 0 (0 + M - 1) u = some e) :
    S2 N M 0 0 (fun i j => scale * (16 * u i j * u i j * (1 - u i j) * (1 - u i j))) - S2 N M 0 0 (fun i j => |fl i j| + |fa i j|) ≤ e := by
  choose g hg1 hg2 using fun c : ℤ × ℤ => bulk_ge hi (fl c.1 c.2) (fa c.1 c.2) (u c.1 c.2)
  obtain ⟨e1, he1⟩ := c108_defined eps scale dx dy 1 N M 0 0 u
  have low := interface_ge eps scale dx dy N M 0 0 u hu e1 he1
  unfold interfaceEnergy2 at he1
  unfold energy2 at h
  simp only [Option.bind_eq_bind] at h
  rw [accumulate_some _ _ _ (fun c => rfl),
    accumulate_some (fun c : ℤ × ℤ => wellCell 'd' scale (u c.1 c.2))
      (fun c => scale * (16 * u c.1 c.2 * u c.1 c.2 * (1 - u c.1 c.2) * (1 - u c.1 c.2))) _ (fun c => rfl)] at h he1
  rw [accumulate_some (fun c : ℤ × ℤ => bulkCell interp (fl c.1 c.2) (fa c.1 c.2) (u c.1 c.2)) g _ hg1] at h
  simp only [Option.bind_eq_bind, Option.bind_some, Option.map_some, Option.some.injEq, loop2_sum] at h he1
  have : -S2 N M 0 0 (fun i j => |fl i j| + |fa i j|) ≤ ∑ b ∈ Finset.range M, ∑ a ∈ Finset.range N, g (0 + (a : ℤ), 0 + (b : ℤ)) * 1 := by
    rw [← neg_one_mul, ← S2_mul]
    refine Finset.sum_le_sum fun b _ => Finset.sum_le_sum fun a _ => ?_
    have := hg2 (0 + (a : ℤ), 0 + (b : ℤ))
    linarith
  linarith

/-- **C151** (given energies of the phases, the two interpolations 'p' and 'h', 2D): in a closed sample the rate of the phase tends to
zero in every cell, whatever the energies of the phases, the start and the mobilities between two positive bounds. -/
theorem c151_isothermal (interp : Char) (hi : interp = 'p' ∨ interp = 'h') (N M : ℕ) (hN : 0 < N) (hM : 0 < M) (eps scale dx dy : ℝ)
    (fl fa : Field2) (mob phi : ℝ → Field2) (hs : 0 < scale) (r : IsoRun2 interp N M eps scale dx dy fl fa mob phi) (i j : ℤ) :
    Tendsto (fun t => deriv (fun s => phi s i j) t) atTop (𝓝 0) := by
  obtain ⟨m0, m1, hm0, hm⟩ := r.mobility
  have hty : interp ∈ derivGood := by rcases hi with rfl | rfl <;> simp [derivGood]
  obtain ⟨H, H', hH, hH', hd⟩ := good_kind interp hty
  set R : ℝ → Field2 := fun t i j => div2 dx dy (gradFluxX eps dx (phi t)) (gradFluxY eps dy (phi t)) i j
      - scale * (32 * phi t i j * (1 - phi t i j) * (1 - 2 * phi t i j)) + H' (phi t i j) * (fl i j - fa i j) with hR
  have rate : ∀ t i j, PhaseRHS.phaseRate2 interp scale dx dy (gradFluxX eps dx (phi t)) (gradFluxY eps dy (phi t)) fl fa
      (phi t) i j = some (R t i j) := by
    intro t i j
    simp [PhaseRHS.phaseRate2, pbgCell, derivWellFunc, fenergyCell, hH' _, hR]
  have flow : ∀ t, 0 ≤ t → ∀ i j, HasDerivAt (fun s => phi s i j) (mob t i j * R t i j) t := by
    intro t ht i j
    obtain ⟨x, h1, h2⟩ := r.moves t ht i j
    rw [Option.some.inj ((rate t i j).symm.trans h1)]
    exact h2
  obtain ⟨E, hE⟩ : ∃ E : ℝ → ℝ, ∀ s, energy2 interp eps scale dx dy fl fa (fun _ => 1) 0 (0 + N - 1) 0 (0 + M - 1) (phi s) = some (E s) := by
    obtain ⟨E, _, hE, _⟩ := c33_gradient_2d interp hty N M 0 0 eps scale dx dy 1 fl fa phi _ 0 r.phase (flow 0 le_rfl)
    exact ⟨E, hE⟩
  have dE : ∀ t, 0 ≤ t → HasDerivAt E (-S2 N M 0 0 fun i j => mob t i j * R t i j ^ 2) t := by
    intro t ht
    obtain ⟨E', x, hE', hx, hd⟩ := c33_gradient_2d interp hty N M 0 0 eps scale dx dy 1 fl fa phi _ t r.phase (flow t ht)
    have e1 : E' = E := funext fun s => Option.some.inj ((hE' s).symm.trans (hE s))
    have e2 : x = R t := by
      funext i j; exact Option.some.inj ((hx i j).symm.trans (rate t i j))
    subst e1 e2
    refine hd.congr_deriv ?_
    congr 1
    exact Finset.sum_congr rfl fun b _ => Finset.sum_congr rfl fun a _ => by ring
  have low := fun t => iso_ge hi N M eps scale dx dy fl fa (phi t) (r.phase t) (E t) (hE t)
  set B0 := S2 N M 0 0 (fun i j => |fl i j| + |fa i j|) with hB0
  have w0 : ∀ t i j, 0 ≤ scale * (16 * phi t i j * phi t i j * (1 - phi t i j) * (1 - phi t i j)) := by
    intro t i j
    have := sq_nonneg (phi t i j * (1 - phi t i j))
    refine mul_nonneg hs.le ?_
    nlinarith
  have anti : AntitoneOn E (Set.Ici 0) := by
    refine antitoneOn_of_deriv_nonpos (convex_Ici 0) (fun x hx => (dE x hx).continuousAt.continuousWithinAt)
      (fun x hx => ?_) (fun x hx => ?_)
    · rw [interior_Ici] at hx
      exact (dE x (le_of_lt hx)).differentiableAt.differentiableWithinAt
    · rw [interior_Ici] at hx
      rw [(dE x (le_of_lt hx)).deriv]
      exact neg_nonpos.2 (S2_nonneg fun i j => mul_nonneg (hm0.le.trans (hm x (le_of_lt hx) i j).1) (sq_nonneg _))
  have bphi : ∀ i j, Bounded fun t => phi t i j := by
    intro i j
    refine ⟨|(E 0 + B0) / (16 * scale)| + 2, fun t ht => well_bounds _ _ ?_⟩
    have c := cell_le_S2 (lo0 := 0) (lo1 := 0) hN hM
      (f := fun i j => scale * (16 * phi t i j * phi t i j * (1 - phi t i j) * (1 - phi t i j)))
      ⟨fun i j => by beta_reduce; rw [(r.phase t).1], fun i j => by beta_reduce; rw [(r.phase t).2]⟩ (w0 t) i j
    have top := anti (Set.mem_Ici.2 le_rfl) (Set.mem_Ici.2 ht) ht
    rw [le_div_iff₀ (by positivity)]
    linarith [low t]
  have bm : ∀ i j, Bounded fun t => mob t i j := fun i j => ⟨m1, fun t ht => by
    rw [abs_of_nonneg (hm0.le.trans (hm t ht i j).1)]; exact (hm t ht i j).2⟩
  have bR : ∀ i j, Bounded fun t => R t i j := by
    intro i j
    have sl : Bounded fun t => H' (phi t i j) := slope_bounded hi _ _ fun t => hH' (phi t i j)
    simp only [hR, div2, gradFluxX, gradFluxY]
    repeat' first | exact bphi _ _ | exact sl | exact Bounded.const _ | apply Bounded.sub | apply Bounded.add | apply Bounded.mul
  have tphi : ∀ i j, Tame fun t => phi t i j := fun i j =>
    Tame.of_deriv (bphi i j) (fun t ht => flow t ht i j) ((bm i j).mul (bR i j))
  have tR : ∀ i j, Tame fun t => R t i j := by
    intro i j
    have sl : Tame fun t => H' (phi t i j) := slope_tame hi (tphi i j) fun t => hH' (phi t i j)
    simp only [hR, div2, gradFluxX, gradFluxY]
    repeat' first | exact tphi _ _ | exact sl | exact Tame.const _ | apply Tame.sub | apply Tame.add | apply Tame.mul
  set A : ℝ → ℝ := fun t => S2 N M 0 0 fun i j => R t i j ^ 2 with hA
  have A0 : ∀ t, 0 ≤ A t := fun t => S2_nonneg fun i j => sq_nonneg _
  have lim : Tendsto (fun t => m0 * A t) atTop (𝓝 0) := by
    refine fades (V := E) (-B0) (fun t _ => ?_) (fun t ht => ⟨_, dE t ht, neg_le_neg ?_⟩) (fun t _ => mul_nonneg hm0.le (A0 t))
      ((Tame.const _).mul (S2_tame fun i j => (tR i j).pow_two))
    · have := S2_nonneg (N := N) (M := M) (lo0 := 0) (lo1 := 0) (w0 t)
      linarith [low t]
    · rw [← S2_mul]
      exact S2_le fun i j => mul_le_mul_of_nonneg_right (hm t ht i j).1 (sq_nonneg _)
  have lA : Tendsto A atTop (𝓝 0) := by
    have := lim.div_const m0
    rw [zero_div] at this
    exact this.congr fun t => mul_div_cancel_left₀ _ hm0.ne'
  have cell : ∀ a < N, ∀ b < M, Tendsto (fun t => deriv (fun s => phi s (0 + (a : ℤ)) (0 + (b : ℤ))) t) atTop (𝓝 0) := by
    intro a ha b hb
    have l : Tendsto (fun t => R t (0 + (a : ℤ)) (0 + (b : ℤ))) atTop (𝓝 0) := by
      refine tendsto_of_sq (squeeze_zero (fun t => sq_nonneg _) (fun t => ?_) lA)
      refine le_trans ?_ (Finset.single_le_sum (f := fun b => ∑ a ∈ Finset.range N, R t (0 + (a : ℤ)) (0 + ((b : ℕ) : ℤ)) ^ 2)
        (fun b _ => Finset.sum_nonneg fun a _ => sq_nonneg _) (Finset.mem_range.2 hb))
      exact Finset.single_le_sum (f := fun a => R t (0 + ((a : ℕ) : ℤ)) (0 + (b : ℤ)) ^ 2) (fun a _ => sq_nonneg _) (Finset.mem_range.2 ha)
    refine (bounded_mul_tendsto (bm (0 + (a : ℤ)) (0 + (b : ℤ))) l).congr' ?_
    filter_upwards [eventually_ge_atTop 0] with t ht
    exact ((flow t ht _ _).deriv).symm
  have per : ∀ t, Periodic2 N M fun i j => deriv (fun s => phi s i j) t := fun t =>
    ⟨fun i j => by simp only [(r.phase _).1], fun i j => by simp only [(r.phase _).2]⟩
  obtain ⟨a, ha, b, hb, e⟩ := copy2 hN hM 0 0 i j
  exact (cell a ha b hb).congr fun t => (e _ (per t)).symm

/-! ## Runs the theorems speak about -/

/-- A temperature that changes sign from cell to cell. -/
noncomputable def chess (i j : ℤ) : ℝ := if Even (i + j) then 1 else -1

theorem chess_x (i j : ℤ) : chess (i + 1) j = -chess i j := by
  unfold chess
  rw [show i + 1 + j = i + j + 1 by ring]
  by_cases h : Even (i + j) <;> simp [h, Int.even_add_one]

theorem chess_y (i j : ℤ) : chess i (j + 1) = -chess i j := by
  unfold chess
  rw [show i + (j + 1) = i + j + 1 by ring]
  by_cases h : Even (i + j) <;> simp [h, Int.even_add_one]

/-- Neither phase nor temperature need be at rest at the start: a chess board of hot and cold cells evens out. -/
example : Run2 .delta 'l' 2 2 1 1 1 1 0 1 0 1 (1 / 8) (fun t _ _ => 2 + Real.sin t) (fun _ _ _ => 1)
    (fun t i j => 1 + Real.exp (-t) * chess i j) := by
  have xm : ∀ i j, chess (i - 1) j = -chess i j := fun i j => by
    have := chess_x (i - 1) j; rw [sub_add_cancel] at this; linarith
  have ym : ∀ i j, chess i (j - 1) = -chess i j := fun i j => by
    have := chess_y i (j - 1); rw [sub_add_cancel] at this; linarith
  refine ⟨fun t => ⟨fun _ _ => rfl, fun _ _ => rfl⟩, fun t => ⟨fun i j => ?_, fun i j => ?_⟩, fun t _ => ?_,
    1, 3, one_pos, fun t _ i j => ⟨by linarith [Real.neg_one_le_sin t], by linarith [Real.sin_le_one t]⟩⟩
  · beta_reduce
    rw [show i + ((2 : ℕ) : ℤ) = i + 1 + 1 by push_cast; ring, chess_x, chess_x, neg_neg]
  · beta_reduce
    rw [show j + ((2 : ℕ) : ℤ) = j + 1 + 1 by push_cast; ring, chess_y, chess_y, neg_neg]
  · refine ⟨fun _ _ => 0, fun i j => hasDerivAt_const _ _, fun i j => ?_, fun i j => ?_⟩
    · rw [rate_some .delta 1 1 1 1 0 1 0 one_ne_zero]
      simp [netForce2, div2, gradFluxX, gradFluxY]
    · have h := ((Real.hasDerivAt_exp (-t)).comp t (hasDerivAt_neg t)).mul_const (chess i j)
      refine (h.const_add 1).congr_deriv ?_
      simp only [rhsTemp2, laplacian2, if_true, chess_x, chess_y, xm, ym]
      ring

/-- The same for a run without temperature: a uniform phase leaves the top of the well and falls to the melt. -/
example : IsoRun2 'p' 3 3 1 (1 / 32) 1 1 (fun _ _ => 0) (fun _ _ => 0) (fun _ _ _ => 1)
    (fun t _ _ => (1 - Real.sqrt (1 + Real.exp (-t))⁻¹) / 2) := by
  refine ⟨fun t => ⟨fun _ _ => rfl, fun _ _ => rfl⟩, fun t _ i j => ?_, 1, 1, one_pos, fun _ _ _ _ => ⟨le_rfl, le_rfl⟩⟩
  set y := Real.sqrt (1 + Real.exp (-t))⁻¹ with hy
  have e0 : 0 < 1 + Real.exp (-t) := by positivity
  have hz : y * y = (1 + Real.exp (-t))⁻¹ := Real.mul_self_sqrt (by positivity)
  have hy0 : 0 < y := Real.sqrt_pos.2 (by positivity)
  refine ⟨-((1 - y * y) * y / 4), ?_, ?_⟩
  · simp [PhaseRHS.phaseRate2, pbgCell, derivWellFunc, fenergyCell, derivInterpFunc, div2, gradFluxX, gradFluxY]
    ring
  · have d0 : HasDerivAt (fun s => (1 + Real.exp (-s))⁻¹) (y * y * (1 - y * y)) t := by
      have d1 := (((Real.hasDerivAt_exp (-t)).comp t (hasDerivAt_neg t)).const_add 1).inv e0.ne'
      refine d1.congr_deriv ?_
      rw [hz]
      simp only [Function.comp]
      field_simp
      ring
    have d2 := ((d0.sqrt (by positivity)).const_sub 1).div_const 2
    refine d2.congr_deriv ?_
    rw [← hy]
    field_simp
    ring

end AMPE.MeltRest.Props
