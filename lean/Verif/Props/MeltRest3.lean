import Verif.Proofs.MeltRest3
import Verif.Props.MeltRest

/-!
# C151 in 3D
-/

namespace AMPE.MeltRest.Props

open AMPE.Functions AMPE.Functions.Props AMPE.Flux AMPE.Flux.Props AMPE.PhaseRHS AMPE.PhaseRHS.Props AMPE.Thermal
  AMPE.Thermal.Props AMPE.MeltFlow AMPE.MeltFlow.Props AMPE.Rest Filter Topology

/-! ## Specification -/

/-- A run from time 0 on of a closed sample of `N × M × K` cells: both fields repeat with the sample, and at all times move as the code
says.  The mobility may change from cell to cell and from time to time between two positive bounds. -/
structure Run3 (kind : Kind) (interp : Char) (N M K : ℕ) (eps scale dx dy dz fa tm L cp D : ℝ) (mob phi T : ℝ → Field3) : Prop where
  phase : ∀ t, Periodic3 N M K (phi t)
  temp : ∀ t, Periodic3 N M K (T t)
  moves : ∀ t, 0 ≤ t → Follows3 kind interp eps scale dx dy dz fa tm L cp D (mob t) phi T t
  mobility : ∃ m0 m1 : ℝ, 0 < m0 ∧ ∀ t, 0 ≤ t → ∀ i j k, m0 ≤ mob t i j k ∧ mob t i j k ≤ m1

/-! ## Lemmas -/

section
variable {kind : Kind} {N M K : ℕ} {eps scale dx dy dz fa tm L cp D : ℝ} {mob phi T : ℝ → Field3}

/-- The rates with the linear interpolation. -/
theorem rates3 (htm : 0 < tm) (r : Run3 kind 'l' N M K eps scale dx dy dz fa tm L cp D mob phi T) (t : ℝ) (ht : 0 ≤ t) (i j k : ℤ) :
    HasDerivAt (fun s => phi s i j k) (mob t i j k * netForce3 kind eps scale dx dy dz tm L (fun _ _ _ => 1) (T t) (phi t) i j k) t ∧
    HasDerivAt (fun s => T s i j k) (laplacian3 dx dy dz D (T t) i j k + L / cp * (mob t i j k
      * netForce3 kind eps scale dx dy dz tm L (fun _ _ _ => 1) (T t) (phi t) i j k)) t := by
  obtain ⟨v, hv, hr, hTd⟩ := r.moves t ht
  obtain ⟨hp, e1, e2⟩ := rate_eq3 kind 'l' eps scale dx dy dz fa tm L htm.ne' (mob t) (T t) (phi t) i j k (v i j k) (hr i j k)
  have : hp = 1 := (Option.some.inj ((slope_linear _).symm.trans e1)).symm
  subst this
  refine ⟨e2 ▸ hv i j k, ?_⟩
  have := hTd i j k
  simp only [rhsTemp3, if_true] at this
  rw [e2] at this
  exact this

theorem interface_defined3 (eps scale dx dy dz : ℝ) (N M K : ℕ) (u : Field3) :
    ∃ e, interfaceEnergy3 eps scale dx dy dz (fun _ => 1) 0 (0 + N - 1) 0 (0 + M - 1) 0 (0 + K - 1) u = some e :=
  ⟨_, interface_some3 eps scale dx dy dz 1 N M K 0 0 0 u⟩

/-- The Lyapunov sum, its rate, and the bounds it gives. -/
theorem basics3 (htm : 0 < tm) (hcp : 0 < cp) (hD : 0 ≤ D)
    (r : Run3 kind 'l' N M K eps scale dx dy dz fa tm L cp D mob phi T) :
    ∃ V : ℝ → ℝ, ∃ m0 : ℝ, 0 < m0 ∧
      (∀ t, S3 N M K 0 0 0 (fun i j k => scale * (16 * phi t i j k * phi t i j k * (1 - phi t i j k) * (1 - phi t i j k)))
        + cp / (4 * tm) * S3 N M K 0 0 0 (fun i j k => (T t i j k - tm) * (T t i j k - tm)) ≤ V t) ∧
      ∀ t, 0 ≤ t → ∃ d, HasDerivAt V d t ∧
        d ≤ -(m0 * (S3 N M K 0 0 0 fun i j k => netForce3 kind eps scale dx dy dz tm L (fun _ _ _ => 1) (T t) (phi t) i j k ^ 2)
          + cp / tm * D * ((1 - 12 * share3 kind) *
            (1 / (dx * dx) * S3 N M K 0 0 0 (fun i j k => (T t (i + 1) j k - T t i j k) * (T t (i + 1) j k - T t i j k))
              + (1 / (dy * dy) * S3 N M K 0 0 0 (fun i j k => (T t i (j + 1) k - T t i j k) * (T t i (j + 1) k - T t i j k))
              + 1 / (dz * dz) * S3 N M K 0 0 0 (fun i j k => (T t i j (k + 1) - T t i j k) * (T t i j (k + 1) - T t i j k)))))) := by
  obtain ⟨m0, m1, hm0, hm⟩ := r.mobility
  choose E hE using fun s => interface_defined3 eps scale dx dy dz N M K (phi s)
  have upt : ∀ t, Periodic3 N M K fun i j k => T t i j k - tm := fun t =>
    ⟨fun i j k => by beta_reduce; rw [(r.temp t).1], fun i j k => by beta_reduce; rw [(r.temp t).2.1],
        fun i j k => by beta_reduce; rw [(r.temp t).2.2]⟩
  refine ⟨fun s => E s + 1 * stored3 kind N M K 0 0 0 cp tm (T s), m0, hm0, fun t => ?_, fun t ht => ?_⟩
  · have ep := interface_ge3 eps scale dx dy dz N M K 0 0 0 (phi t) (r.phase t) (E t) (hE t)
    have pos := smooth3_pos (lo0 := 0) (lo1 := 0) (lo2 := 0) (share3_bounds kind).1 _ (upt t)
    have sp : 0 ≤ S3 N M K 0 0 0 fun i j k => (T t i j k - tm) * (T t i j k - tm) := S3_nonneg fun i j k => mul_self_nonneg _
    have hk : 1 / 2 ≤ 1 - 12 * share3 kind := by cases kind <;> norm_num [share3]
    have q := mul_le_mul_of_nonneg_right hk sp
    have lower : cp / (4 * tm) * S3 N M K 0 0 0 (fun i j k => (T t i j k - tm) * (T t i j k - tm)) ≤ stored3 kind N M K 0 0 0 cp tm (T t) := by
      unfold stored3
      rw [show cp / (4 * tm) = cp / (2 * tm) * (1 / 2) by field_simp; norm_num, mul_assoc]
      exact mul_le_mul_of_nonneg_left (le_trans q pos) (by positivity)
    linarith
  · obtain ⟨hp, hh, hd⟩ := c108_balance3 kind 'l' N M K 0 0 0 eps scale dx dy dz fa tm L cp D 1 (mob t) phi T t htm.ne' hcp.ne' r.phase r.temp
      (r.moves t ht) E hE
    have h1 : hp = fun _ _ _ => 1 := by
      funext i j k; exact (Option.some.inj ((slope_linear _).symm.trans (hh i j k))).symm
    subst h1
    refine ⟨_, hd, ?_⟩
    have z : (S3 N M K 0 0 0 fun i j k => mob t i j k * netForce3 kind eps scale dx dy dz tm L (fun _ _ _ => 1) (T t) (phi t) i j k
              * smooth3 (share3 kind) (fun i j k => T t i j k - tm) i j k * (1 - 1)) = 0 := by
      rw [S3_congr (g := fun _ _ _ => 0) fun i j k => by ring]
      simp [S3]
    rw [z, mul_zero, add_zero, one_mul]
    have p1 : m0 * (S3 N M K 0 0 0 fun i j k => netForce3 kind eps scale dx dy dz tm L (fun _ _ _ => 1) (T t) (phi t) i j k ^ 2) ≤
        S3 N M K 0 0 0 fun i j k => mob t i j k * netForce3 kind eps scale dx dy dz tm L (fun _ _ _ => 1) (T t) (phi t) i j k ^ 2 := by
      rw [← S3_mul]
      exact S3_le fun i j k => mul_le_mul_of_nonneg_right (hm t ht i j k).1 (sq_nonneg _)
    have p2 := covar3_smooth_ge (lo0 := 0) (lo1 := 0) (lo2 := 0) (share3_bounds kind).1 dx dy dz _ (upt t)
    have k : 0 ≤ cp / tm * D := by positivity
    have p3 := mul_le_mul_of_nonneg_left p2 k
    simp only [sub_sub_sub_cancel_right] at p3
    linarith

/-- Both fields stay bounded and Lipschitz in time. -/
theorem tame3 (hN : 0 < N) (hM : 0 < M) (hK : 0 < K) (hs : 0 < scale) (htm : 0 < tm) (hcp : 0 < cp) (hD : 0 ≤ D)
    (r : Run3 kind 'l' N M K eps scale dx dy dz fa tm L cp D mob phi T) :
    (∀ i j k, Tame fun t => phi t i j k) ∧ ∀ i j k, Tame fun t => T t i j k := by
  obtain ⟨V, m0, hm0, low, rate⟩ := basics3 htm hcp hD r
  have k8 : 0 ≤ 1 - 12 * share3 kind := by linarith [(share3_bounds kind).2]
  have anti : AntitoneOn V (Set.Ici 0) := by
    choose! d hd1 hd2 using rate
    refine antitoneOn_of_deriv_nonpos (convex_Ici 0) (fun x hx => (hd1 x hx).continuousAt.continuousWithinAt)
      (fun x hx => ?_) (fun x hx => ?_)
    · rw [interior_Ici] at hx
      exact (hd1 x (le_of_lt hx)).differentiableAt.differentiableWithinAt
    · rw [interior_Ici] at hx
      rw [(hd1 x (le_of_lt hx)).deriv]
      refine (hd2 x (le_of_lt hx)).trans (neg_nonpos.2 (add_nonneg (mul_nonneg hm0.le (S3_nonneg fun i j k => sq_nonneg _)) ?_))
      exact mul_nonneg (by positivity) (mul_nonneg k8 (add_nonneg
        (mul_nonneg (one_div_nonneg.2 (mul_self_nonneg _)) (S3_nonneg fun i j k => mul_self_nonneg _)) (add_nonneg
        (mul_nonneg (one_div_nonneg.2 (mul_self_nonneg _)) (S3_nonneg fun i j k => mul_self_nonneg _))
        (mul_nonneg (one_div_nonneg.2 (mul_self_nonneg _)) (S3_nonneg fun i j k => mul_self_nonneg _)))))
  have top : ∀ t, 0 ≤ t → V t ≤ V 0 := fun t ht => anti (Set.mem_Ici.2 le_rfl) (Set.mem_Ici.2 ht) ht
  have w0 : ∀ t i j k, 0 ≤ scale * (16 * phi t i j k * phi t i j k * (1 - phi t i j k) * (1 - phi t i j k)) := by
    intro t i j k
    have := sq_nonneg (phi t i j k * (1 - phi t i j k))
    refine mul_nonneg hs.le ?_
    nlinarith
  have bphi : ∀ i j k, Bounded fun t => phi t i j k := by
    intro i j k
    refine ⟨|V 0 / (16 * scale)| + 2, fun t ht => well_bounds _ _ ?_⟩
    have c := cell_le_S3 (lo0 := 0) (lo1 := 0) (lo2 := 0) hN hM hK
      (f := fun i j k => scale * (16 * phi t i j k * phi t i j k * (1 - phi t i j k) * (1 - phi t i j k)))
      ⟨fun i j k => by beta_reduce; rw [(r.phase t).1], fun i j k => by beta_reduce; rw [(r.phase t).2.1],
        fun i j k => by beta_reduce; rw [(r.phase t).2.2]⟩ (w0 t) i j k
    have p : 0 ≤ cp / (4 * tm) * S3 N M K 0 0 0 (fun i j k => (T t i j k - tm) * (T t i j k - tm)) :=
      mul_nonneg (by positivity) (S3_nonneg fun i j k => mul_self_nonneg _)
    rw [le_div_iff₀ (by positivity)]
    linarith [low t, top t ht]
  have bT : ∀ i j k, Bounded fun t => T t i j k := by
    intro i j k
    refine ⟨tm + 1 + V 0 / (cp / (4 * tm)), fun t ht => ?_⟩
    have c := cell_le_S3 (lo0 := 0) (lo1 := 0) (lo2 := 0) hN hM hK (f := fun i j k => (T t i j k - tm) * (T t i j k - tm))
      ⟨fun i j k => by beta_reduce; rw [(r.temp t).1], fun i j k => by beta_reduce; rw [(r.temp t).2.1],
        fun i j k => by beta_reduce; rw [(r.temp t).2.2]⟩ (fun i j k => mul_self_nonneg _) i j k
    have p : 0 ≤ S3 N M K 0 0 0 (fun i j k => scale * (16 * phi t i j k * phi t i j k * (1 - phi t i j k) * (1 - phi t i j k))) :=
      S3_nonneg (w0 t)
    have q : (T t i j k - tm) * (T t i j k - tm) ≤ V 0 / (cp / (4 * tm)) := by
      rw [le_div_iff₀ (by positivity)]
      have := mul_le_mul_of_nonneg_left c (show 0 ≤ cp / (4 * tm) by positivity)
      linarith [low t, top t ht]
    rw [abs_le]
    constructor <;> nlinarith [sq_nonneg (T t i j k - tm - 1), sq_nonneg (T t i j k - tm + 1)]
  obtain ⟨m0', m1, hm0', hm⟩ := r.mobility
  have bm : ∀ i j k, Bounded fun t => mob t i j k := fun i j k => ⟨m1, fun t ht => by
    rw [abs_of_nonneg (hm0'.le.trans (hm t ht i j k).1)]; exact (hm t ht i j k).2⟩
  have bF : ∀ i j k, Bounded fun t => netForce3 kind eps scale dx dy dz tm L (fun _ _ _ => 1) (T t) (phi t) i j k := by
    intro i j k
    unfold netForce3 div3 gradFlux3X gradFlux3Y gradFlux3Z smooth3
    repeat' first | exact bphi _ _ _ | exact bT _ _ _ | exact Bounded.const _ | apply Bounded.sub | apply Bounded.add | apply Bounded.mul
  refine ⟨fun i j k => Tame.of_deriv (bphi i j k) (fun t ht => (rates3 htm r t ht i j k).1) ((bm i j k).mul (bF i j k)),
    fun i j k => Tame.of_deriv (bT i j k) (fun t ht => (rates3 htm r t ht i j k).2) (Bounded.add ?_ ((Bounded.const _).mul ((bm i j k).mul (bF i j k))))⟩
  unfold laplacian3
  repeat' first | exact bT _ _ _ | exact Bounded.const _ | apply Bounded.sub | apply Bounded.add | apply Bounded.mul

theorem force_tame3 (hN : 0 < N) (hM : 0 < M) (hK : 0 < K) (hs : 0 < scale) (htm : 0 < tm) (hcp : 0 < cp) (hD : 0 ≤ D)
    (r : Run3 kind 'l' N M K eps scale dx dy dz fa tm L cp D mob phi T) (i j k : ℤ) :
    Tame fun t => netForce3 kind eps scale dx dy dz tm L (fun _ _ _ => 1) (T t) (phi t) i j k := by
  obtain ⟨tphi, tT⟩ := tame3 hN hM hK hs htm hcp hD r
  unfold netForce3 div3 gradFlux3X gradFlux3Y gradFlux3Z smooth3
  repeat' first | exact tphi _ _ _ | exact tT _ _ _ | exact Tame.const _ | apply Tame.sub | apply Tame.add | apply Tame.mul

theorem netForce3_periodic (kind : Kind) (N M K : ℕ) (eps scale dx dy dz tm L : ℝ) (T phi : Field3) (hT : Periodic3 N M K T)
    (hp : Periodic3 N M K phi) : Periodic3 N M K (netForce3 kind eps scale dx dy dz tm L (fun _ _ _ => 1) T phi) := by
  refine ⟨fun i j k => ?_, fun i j k => ?_, fun i j k => ?_⟩ <;> unfold netForce3 div3 gradFlux3X gradFlux3Y gradFlux3Z smooth3
  · rw [show i + (N : ℤ) - 1 = i - 1 + N by ring, show i + (N : ℤ) + 1 = i + 1 + N by ring]
    simp only [hT.1, hp.1, show i + 1 + (N : ℤ) - 1 = i + 1 - 1 + N by ring]
  · rw [show j + (M : ℤ) - 1 = j - 1 + M by ring, show j + (M : ℤ) + 1 = j + 1 + M by ring]
    simp only [hT.2.1, hp.2.1, show j + 1 + (M : ℤ) - 1 = j + 1 - 1 + M by ring]
  · rw [show k + (K : ℤ) - 1 = k - 1 + K by ring, show k + (K : ℤ) + 1 = k + 1 + K by ring]
    simp only [hT.2.2, hp.2.2, show k + 1 + (K : ℤ) - 1 = k + 1 - 1 + K by ring]

/-- Forces and differences of temperature fade. -/
theorem fade3 (hN : 0 < N) (hM : 0 < M) (hK : 0 < K) (hx : dx ≠ 0) (hy : dy ≠ 0) (hz : dz ≠ 0) (hs : 0 < scale) (htm : 0 < tm) (hcp : 0 < cp) (hD : 0 < D)
    (r : Run3 kind 'l' N M K eps scale dx dy dz fa tm L cp D mob phi T) (i j k : ℤ) :
    Tendsto (fun t => netForce3 kind eps scale dx dy dz tm L (fun _ _ _ => 1) (T t) (phi t) i j k) atTop (𝓝 0) ∧
    Tendsto (fun t => T t (i + 1) j k - T t i j k) atTop (𝓝 0) ∧ Tendsto (fun t => T t i (j + 1) k - T t i j k) atTop (𝓝 0) ∧
      Tendsto (fun t => T t i j (k + 1) - T t i j k) atTop (𝓝 0) := by
  obtain ⟨V, m0, hm0, low, rate⟩ := basics3 htm hcp hD.le r
  obtain ⟨tphi, tT⟩ := tame3 hN hM hK hs htm hcp hD.le r
  have tF := force_tame3 hN hM hK hs htm hcp hD.le r
  set κ := cp / tm * D with hκ
  have kpos : 0 < κ := by positivity
  have k8 : 0 < 1 - 12 * share3 kind := by linarith [(share3_bounds kind).2]
  have cx : 0 < 1 / (dx * dx) := one_div_pos.2 (mul_self_pos.2 hx)
  have cy : 0 < 1 / (dy * dy) := one_div_pos.2 (mul_self_pos.2 hy)
  have cz : 0 < 1 / (dz * dz) := one_div_pos.2 (mul_self_pos.2 hz)
  set A : ℝ → ℝ := fun t => S3 N M K 0 0 0 fun i j k => netForce3 kind eps scale dx dy dz tm L (fun _ _ _ => 1) (T t) (phi t) i j k ^ 2 with hA
  set B : ℝ → ℝ := fun t => S3 N M K 0 0 0 (fun i j k => (T t (i + 1) j k - T t i j k) * (T t (i + 1) j k - T t i j k)) with hB
  set C : ℝ → ℝ := fun t => S3 N M K 0 0 0 (fun i j k => (T t i (j + 1) k - T t i j k) * (T t i (j + 1) k - T t i j k)) with hC
  set G : ℝ → ℝ := fun t => S3 N M K 0 0 0 (fun i j k => (T t i j (k + 1) - T t i j k) * (T t i j (k + 1) - T t i j k)) with hG
  have A0 : ∀ t, 0 ≤ A t := fun t => S3_nonneg fun i j k => sq_nonneg _
  have B0 : ∀ t, 0 ≤ B t := fun t => S3_nonneg fun i j k => mul_self_nonneg _
  have C0 : ∀ t, 0 ≤ C t := fun t => S3_nonneg fun i j k => mul_self_nonneg _
  have G0 : ∀ t, 0 ≤ G t := fun t => S3_nonneg fun i j k => mul_self_nonneg _
  have tA : Tame A := S3_tame fun i j k => (tF i j k).pow_two
  have tB : Tame B := S3_tame fun i j k => ((tT _ _ _).sub (tT _ _ _)).mul ((tT _ _ _).sub (tT _ _ _))
  have tC : Tame C := S3_tame fun i j k => ((tT _ _ _).sub (tT _ _ _)).mul ((tT _ _ _).sub (tT _ _ _))
  have tG : Tame G := S3_tame fun i j k => ((tT _ _ _).sub (tT _ _ _)).mul ((tT _ _ _).sub (tT _ _ _))
  set q : ℝ → ℝ := fun t => m0 * A t + κ * ((1 - 12 * share3 kind) * (1 / (dx * dx) * B t + (1 / (dy * dy) * C t + 1 / (dz * dz) * G t))) with hq
  have q1 : ∀ t, m0 * A t ≤ q t := fun t => le_add_of_nonneg_right (mul_nonneg kpos.le (mul_nonneg k8.le
    (add_nonneg (mul_nonneg cx.le (B0 t)) (add_nonneg (mul_nonneg cy.le (C0 t)) (mul_nonneg cz.le (G0 t))))))
  have all : ∀ t, 0 ≤ m0 * A t ∧ 0 ≤ κ * ((1 - 12 * share3 kind) * (1 / (dx * dx) * B t)) ∧
      0 ≤ κ * ((1 - 12 * share3 kind) * (1 / (dy * dy) * C t)) ∧ 0 ≤ κ * ((1 - 12 * share3 kind) * (1 / (dz * dz) * G t)) := fun t =>
    ⟨mul_nonneg hm0.le (A0 t), mul_nonneg kpos.le (mul_nonneg k8.le (mul_nonneg cx.le (B0 t))),
      mul_nonneg kpos.le (mul_nonneg k8.le (mul_nonneg cy.le (C0 t))), mul_nonneg kpos.le (mul_nonneg k8.le (mul_nonneg cz.le (G0 t)))⟩
  have q2 : ∀ t, κ * ((1 - 12 * share3 kind) * (1 / (dx * dx))) * B t ≤ q t := fun t => by
    obtain ⟨a, b, c, d⟩ := all t
    simp only [hq]
    linarith
  have q3 : ∀ t, κ * ((1 - 12 * share3 kind) * (1 / (dy * dy))) * C t ≤ q t := fun t => by
    obtain ⟨a, b, c, d⟩ := all t
    simp only [hq]
    linarith
  have q4 : ∀ t, κ * ((1 - 12 * share3 kind) * (1 / (dz * dz))) * G t ≤ q t := fun t => by
    obtain ⟨a, b, c, d⟩ := all t
    simp only [hq]
    linarith
  have tq : Tame q := ((Tame.const _).mul tA).add ((Tame.const _).mul ((Tame.const _).mul
    (((Tame.const _).mul tB).add (((Tame.const _).mul tC).add ((Tame.const _).mul tG)))))
  have V0 : ∀ t, 0 ≤ t → 0 ≤ V t := fun t _ => by
    refine le_trans (add_nonneg (S3_nonneg fun i j k => mul_nonneg hs.le ?_)
      (mul_nonneg (by positivity) (S3_nonneg fun i j k => mul_self_nonneg _))) (low t)
    nlinarith [sq_nonneg (phi t i j k * (1 - phi t i j k))]
  have lim : Tendsto q atTop (𝓝 0) := fades 0 V0 rate (fun t _ => (mul_nonneg hm0.le (A0 t)).trans (q1 t)) tq
  have part : ∀ (c : ℝ) (f : ℝ → ℝ), 0 < c → (∀ t, 0 ≤ f t) → (∀ t, c * f t ≤ q t) → Tendsto f atTop (𝓝 0) := by
    intro c f hc f0 hf
    refine squeeze_zero f0 (fun t => (le_div_iff₀ hc).2 (by rw [mul_comm]; exact hf t)) (g := fun t => q t / c) ?_
    have := lim.div_const c
    rwa [zero_div] at this
  have lA := part m0 A hm0 A0 q1
  have lB := part _ B (mul_pos kpos (mul_pos k8 cx)) B0 q2
  have lC := part _ C (mul_pos kpos (mul_pos k8 cy)) C0 q3
  have lG := part _ G (mul_pos kpos (mul_pos k8 cz)) G0 q4
  refine ⟨tendsto_of_sq (squeeze_zero (fun t => sq_nonneg _) (fun t => ?_) lA),
    tendsto_of_sq (squeeze_zero (fun t => sq_nonneg _) (fun t => ?_) lB),
    tendsto_of_sq (squeeze_zero (fun t => sq_nonneg _) (fun t => ?_) lC),
    tendsto_of_sq (squeeze_zero (fun t => sq_nonneg _) (fun t => ?_) lG)⟩
  · have np := netForce3_periodic kind N M K eps scale dx dy dz tm L (T t) (phi t) (r.temp t) (r.phase t)
    simp only [hA, sq]
    exact cell_le_S3 (lo0 := 0) (lo1 := 0) (lo2 := 0) hN hM hK (mul_periodic np np) (fun i j k => mul_self_nonneg _) i j k
  · have np := sub_periodic (xp_periodic (r.temp t)) (r.temp t)
    rw [sq]
    exact cell_le_S3 (lo0 := 0) (lo1 := 0) (lo2 := 0) hN hM hK (mul_periodic np np) (fun i j k => mul_self_nonneg _) i j k
  · have np := sub_periodic (yp_periodic (r.temp t)) (r.temp t)
    rw [sq]
    exact cell_le_S3 (lo0 := 0) (lo1 := 0) (lo2 := 0) hN hM hK (mul_periodic np np) (fun i j k => mul_self_nonneg _) i j k
  · have np := sub_periodic (zp_periodic (r.temp t)) (r.temp t)
    rw [sq]
    exact cell_le_S3 (lo0 := 0) (lo1 := 0) (lo2 := 0) hN hM hK (mul_periodic np np) (fun i j k => mul_self_nonneg _) i j k

end

/-! ## C151 -/

/-- **C151** (linear interpolation, 3D): the run comes to rest.  As time goes on the rate of the phase in every cell tends to zero, the
rate of the temperature in every cell tends to zero, and neighbouring cells get the same temperature.  Missing from the full claim: the
other interpolations with the heat equation, whose sum of C108 may grow (`c108_violation_interpolation`). -/
theorem c151_rest3_partial (kind : Kind) (N M K : ℕ) (hN : 0 < N) (hM : 0 < M) (hK : 0 < K) (eps scale dx dy dz fa tm L cp D : ℝ)
    (mob phi T : ℝ → Field3) (hx : dx ≠ 0) (hy : dy ≠ 0) (hz : dz ≠ 0) (hs : 0 < scale) (htm : 0 < tm) (hcp : 0 < cp) (hD : 0 < D)
    (r : Run3 kind 'l' N M K eps scale dx dy dz fa tm L cp D mob phi T) (i j k : ℤ) :
    Tendsto (fun t => deriv (fun s => phi s i j k) t) atTop (𝓝 0) ∧ Tendsto (fun t => deriv (fun s => T s i j k) t) atTop (𝓝 0) ∧
      Tendsto (fun t => T t (i + 1) j k - T t i j k) atTop (𝓝 0) ∧ Tendsto (fun t => T t i (j + 1) k - T t i j k) atTop (𝓝 0) ∧
      Tendsto (fun t => T t i j (k + 1) - T t i j k) atTop (𝓝 0) := by
  have f := fade3 hN hM hK hx hy hz hs htm hcp hD r
  obtain ⟨m0, m1, hm0, hm⟩ := r.mobility
  have bm : Bounded fun t => mob t i j k := ⟨m1, fun t ht => by
    rw [abs_of_nonneg (hm0.le.trans (hm t ht i j k).1)]; exact (hm t ht i j k).2⟩
  have l1 := bounded_mul_tendsto bm (f i j k).1
  refine ⟨l1.congr' ?_, ?_, (f i j k).2⟩
  · filter_upwards [eventually_ge_atTop 0] with t ht
    exact ((rates3 htm r t ht i j k).1.deriv).symm
  · have a := (f i j k).2.1
    have b := (f (i - 1) j k).2.1
    have c := (f i j k).2.2.1
    have d := (f i (j - 1) k).2.2.1
    have g := (f i j k).2.2.2
    have h := (f i j (k - 1)).2.2.2
    simp only [sub_add_cancel] at b d h
    have l2 : Tendsto (fun t => laplacian3 dx dy dz D (T t) i j k) atTop (𝓝 0) := by
      have := (((a.sub b).mul_const (1 / (dx * dx))).add (((c.sub d).mul_const (1 / (dy * dy))).add
        ((g.sub h).mul_const (1 / (dz * dz))))).const_mul D
      simp only [sub_zero, zero_mul, add_zero, mul_zero] at this
      refine this.congr fun t => ?_
      simp only [laplacian3]
      ring
    have l3 := l2.add (l1.const_mul (L / cp))
    simp only [mul_zero, add_zero] at l3
    refine l3.congr' ?_
    filter_upwards [eventually_ge_atTop 0] with t ht
    exact ((rates3 htm r t ht i j k).2.deriv).symm

theorem rate_some3 (kind : Kind) (eps scale dx dy dz fa tm L : ℝ) (htm : tm ≠ 0) (mob T phi : Field3) (i j k : ℤ) :
    phaseRate3 kind 'l' eps scale dx dy dz fa tm L mob T phi i j k =
      some (mob i j k * netForce3 kind eps scale dx dy dz tm L (fun _ _ _ => 1) T phi i j k) := by
  obtain ⟨x, hx⟩ : ∃ x, phaseRate3 kind 'l' eps scale dx dy dz fa tm L mob T phi i j k = some x := by
    cases kind <;> simp [MeltFlow.phaseRate3, pbgCell, derivWellFunc, addForce3, deltaTemperature3, fenergyCell, slope_linear]
  obtain ⟨hp, e1, e2⟩ := rate_eq3 kind 'l' eps scale dx dy dz fa tm L htm mob T phi i j k x hx
  have : hp = 1 := (Option.some.inj ((slope_linear _).symm.trans e1)).symm
  subst this
  rw [hx, e2]

/-- **C151** (linear interpolation, 3D): what a run comes to.  Along some sequence of times going to infinity the fields converge in
every cell; and whenever they converge along such a sequence, the limit is a state in which no cell moves, whatever the mobility, and
the temperature is uniform.  Missing: the other interpolations. -/
theorem c151_limit3_partial (kind : Kind) (N M K : ℕ) (hN : 0 < N) (hM : 0 < M) (hK : 0 < K) (eps scale dx dy dz fa tm L cp D : ℝ)
    (mob phi T : ℝ → Field3) (hx : dx ≠ 0) (hy : dy ≠ 0) (hz : dz ≠ 0) (hs : 0 < scale) (htm : 0 < tm) (hcp : 0 < cp) (hD : 0 < D)
    (r : Run3 kind 'l' N M K eps scale dx dy dz fa tm L cp D mob phi T) :
    (∃ (τ : ℕ → ℝ) (φ' T' : Field3), Tendsto τ atTop atTop ∧ (∀ i j k, Tendsto (fun n => phi (τ n) i j k) atTop (𝓝 (φ' i j k))) ∧
      ∀ i j k, Tendsto (fun n => T (τ n) i j k) atTop (𝓝 (T' i j k))) ∧
    ∀ (τ : ℕ → ℝ) (φ' T' : Field3), Tendsto τ atTop atTop → (∀ i j k, Tendsto (fun n => phi (τ n) i j k) atTop (𝓝 (φ' i j k))) →
      (∀ i j k, Tendsto (fun n => T (τ n) i j k) atTop (𝓝 (T' i j k))) →
      (∀ mob' i j k, phaseRate3 kind 'l' eps scale dx dy dz fa tm L mob' T' φ' i j k = some 0) ∧
        ∀ i j k, T' (i + 1) j k = T' i j k ∧ T' i (j + 1) k = T' i j k ∧ T' i j (k + 1) = T' i j k := by
  have f := fade3 hN hM hK hx hy hz hs htm hcp hD r
  constructor
  · obtain ⟨tphi, tT⟩ := tame3 hN hM hK hs htm hcp hD.le r
    choose P hP using fun i j k => (tphi i j k).1
    choose Q hQ using fun i j k => (tT i j k).1
    have cP : IsCompact (Set.pi Set.univ fun i : ℤ => Set.pi Set.univ fun j : ℤ => Set.pi Set.univ fun k : ℤ => Set.Icc (-P i j k) (P i j k)) :=
      isCompact_univ_pi fun i => isCompact_univ_pi fun j => isCompact_univ_pi fun k => isCompact_Icc
    have cQ : IsCompact (Set.pi Set.univ fun i : ℤ => Set.pi Set.univ fun j : ℤ => Set.pi Set.univ fun k : ℤ => Set.Icc (-Q i j k) (Q i j k)) :=
      isCompact_univ_pi fun i => isCompact_univ_pi fun j => isCompact_univ_pi fun k => isCompact_Icc
    obtain ⟨⟨φ', T'⟩, -, g, hg, hlim⟩ := (cP.prod cQ).tendsto_subseq (x := fun n : ℕ => (phi (n : ℝ), T (n : ℝ))) fun n =>
      ⟨fun i _ j _ k _ => abs_le.1 (hP i j k n n.cast_nonneg), fun i _ j _ k _ => abs_le.1 (hQ i j k n n.cast_nonneg)⟩
    have h1 := (Prod.tendsto_iff _ _).1 hlim
    refine ⟨fun n => (g n : ℝ), φ', T', tendsto_natCast_atTop_atTop.comp hg.tendsto_atTop, fun i j k => ?_, fun i j k => ?_⟩
    · exact tendsto_pi_nhds.1 (tendsto_pi_nhds.1 (tendsto_pi_nhds.1 h1.1 i) j) k
    · exact tendsto_pi_nhds.1 (tendsto_pi_nhds.1 (tendsto_pi_nhds.1 h1.2 i) j) k
  · intro τ φ' T' hτ hφ hT
    refine ⟨fun mob' i j k => ?_, fun i j k => ?_⟩
    · have cont : Continuous fun p : (ℤ → ℤ → ℤ → ℝ) × (ℤ → ℤ → ℤ → ℝ) => netForce3 kind eps scale dx dy dz tm L (fun _ _ _ => 1) p.1 p.2 i j k := by
        unfold netForce3 div3 gradFlux3X gradFlux3Y gradFlux3Z smooth3
        fun_prop
      have hlim : Tendsto (fun n => ((T (τ n) : ℤ → ℤ → ℤ → ℝ), (phi (τ n) : ℤ → ℤ → ℤ → ℝ))) atTop (𝓝 (T', φ')) :=
        (Prod.tendsto_iff _ _).2 ⟨tendsto_pi_nhds.2 fun i => tendsto_pi_nhds.2 fun j => tendsto_pi_nhds.2 fun k => hT i j k,
          tendsto_pi_nhds.2 fun i => tendsto_pi_nhds.2 fun j => tendsto_pi_nhds.2 fun k => hφ i j k⟩
      have z := tendsto_nhds_unique ((cont.tendsto _).comp hlim) ((f i j k).1.comp hτ)
      rw [rate_some3 kind eps scale dx dy dz fa tm L htm.ne' mob' T' φ' i j k]
      simp only at z
      rw [z, mul_zero]
    · exact ⟨sub_eq_zero.1 (tendsto_nhds_unique ((hT (i + 1) j k).sub (hT i j k)) ((f i j k).2.1.comp hτ)),
        sub_eq_zero.1 (tendsto_nhds_unique ((hT i (j + 1) k).sub (hT i j k)) ((f i j k).2.2.1.comp hτ)),
        sub_eq_zero.1 (tendsto_nhds_unique ((hT i j (k + 1)).sub (hT i j k)) ((f i j k).2.2.2.comp hτ))⟩

/-! ## A run at given energies of the phases -/

/-- A run from time 0 on of a closed sample in which the free energies of the two phases are given cell by cell. -/
structure IsoRun3 (interp : Char) (N M K : ℕ) (eps scale dx dy dz : ℝ) (fl fa : Field3) (mob phi : ℝ → Field3) : Prop where
  phase : ∀ t, Periodic3 N M K (phi t)
  moves : ∀ t, 0 ≤ t → ∀ i j k, ∃ r, PhaseRHS.phaseRate3 interp scale dx dy dz (gradFlux3X eps dx (phi t)) (gradFlux3Y eps dy (phi t)) (gradFlux3Z eps dz (phi t)) fl fa
    (phi t) i j k = some r ∧ HasDerivAt (fun s => phi s i j k) (mob t i j k * r) t
  mobility : ∃ m0 m1 : ℝ, 0 < m0 ∧ ∀ t, 0 ≤ t → ∀ i j k, m0 ≤ mob t i j k ∧ mob t i j k ≤ m1

theorem iso_ge3 {interp : Char} (hi : interp = 'p' ∨ interp = 'h') (N M K : ℕ) (eps scale dx dy dz : ℝ) (fl fa u : Field3)
    (hu : Periodic3 N M K u) (e : ℝ) (h : energy3 interp eps scale dx dy dz fl fa (fun _ => 1) 0 (0 + N - 1) 0 (0 + M - 1) 0 (0 + K - 1) u = some e) :
    S3 N M K 0 0 0 (fun i j k => scale * (16 * u i j k * u i j k * (1 - u i j k) * (1 - u i j k))) - S3 N M K 0 0 0 (fun i j k => |fl i j k| + |fa i j k|) ≤ e := by
  choose g hg1 hg2 using fun c : ℤ × ℤ × ℤ => bulk_ge hi (fl c.1 c.2.1 c.2.2) (fa c.1 c.2.1 c.2.2) (u c.1 c.2.1 c.2.2)
  obtain ⟨e1, he1⟩ := interface_defined3 eps scale dx dy dz N M K u
  have low := interface_ge3 eps scale dx dy dz N M K 0 0 0 u hu e1 he1
  unfold interfaceEnergy3 at he1
  unfold energy3 at h
  simp only [Option.bind_eq_bind] at h
  rw [accumulate_some _ _ _ (fun c => rfl),
    accumulate_some (fun c : ℤ × ℤ × ℤ => wellCell 'd' scale (u c.1 c.2.1 c.2.2))
      (fun c => scale * (16 * u c.1 c.2.1 c.2.2 * u c.1 c.2.1 c.2.2 * (1 - u c.1 c.2.1 c.2.2) * (1 - u c.1 c.2.1 c.2.2))) _ (fun c => rfl)] at h he1
  rw [accumulate_some (fun c : ℤ × ℤ × ℤ => bulkCell interp (fl c.1 c.2.1 c.2.2) (fa c.1 c.2.1 c.2.2) (u c.1 c.2.1 c.2.2)) g _ hg1] at h
  simp only [Option.bind_eq_bind, Option.bind_some, Option.map_some, Option.some.injEq, loop3_sum] at h he1
  have : -S3 N M K 0 0 0 (fun i j k => |fl i j k| + |fa i j k|) ≤ ∑ c ∈ Finset.range K, ∑ b ∈ Finset.range M, ∑ a ∈ Finset.range N,
      g (0 + (a : ℤ), 0 + (b : ℤ), 0 + (c : ℤ)) * 1 := by
    rw [← neg_one_mul, ← S3_mul]
    refine Finset.sum_le_sum fun c _ => Finset.sum_le_sum fun b _ => Finset.sum_le_sum fun a _ => ?_
    have := hg2 (0 + (a : ℤ), 0 + (b : ℤ), 0 + (c : ℤ))
    linarith
  linarith

/-- **C151** (given energies of the phases, the two interpolations 'p' and 'h', 3D): in a closed sample the rate of the phase tends to
zero in every cell, whatever the energies of the phases, the start and the mobilities between two positive bounds. -/
theorem c151_isothermal3 (interp : Char) (hi : interp = 'p' ∨ interp = 'h') (N M K : ℕ) (hN : 0 < N) (hM : 0 < M) (hK : 0 < K) (eps scale dx dy dz : ℝ)
    (fl fa : Field3) (mob phi : ℝ → Field3) (hs : 0 < scale) (r : IsoRun3 interp N M K eps scale dx dy dz fl fa mob phi) (i j k : ℤ) :
    Tendsto (fun t => deriv (fun s => phi s i j k) t) atTop (𝓝 0) := by
  obtain ⟨m0, m1, hm0, hm⟩ := r.mobility
  have hty : interp ∈ derivGood := by rcases hi with rfl | rfl <;> simp [derivGood]
  obtain ⟨H, H', hH, hH', hd⟩ := good_kind interp hty
  set R : ℝ → Field3 := fun t i j k => div3 dx dy dz (gradFlux3X eps dx (phi t)) (gradFlux3Y eps dy (phi t)) (gradFlux3Z eps dz (phi t)) i j k
      - scale * (32 * phi t i j k * (1 - phi t i j k) * (1 - 2 * phi t i j k)) + H' (phi t i j k) * (fl i j k - fa i j k) with hR
  have rate : ∀ t i j k, PhaseRHS.phaseRate3 interp scale dx dy dz (gradFlux3X eps dx (phi t)) (gradFlux3Y eps dy (phi t)) (gradFlux3Z eps dz (phi t)) fl fa
      (phi t) i j k = some (R t i j k) := by
    intro t i j k
    simp [PhaseRHS.phaseRate3, pbgCell, derivWellFunc, fenergyCell, hH' _, hR]
  have flow : ∀ t, 0 ≤ t → ∀ i j k, HasDerivAt (fun s => phi s i j k) (mob t i j k * R t i j k) t := by
    intro t ht i j k
    obtain ⟨x, h1, h2⟩ := r.moves t ht i j k
    rw [Option.some.inj ((rate t i j k).symm.trans h1)]
    exact h2
  obtain ⟨E, hE⟩ : ∃ E : ℝ → ℝ, ∀ s, energy3 interp eps scale dx dy dz fl fa (fun _ => 1) 0 (0 + N - 1) 0 (0 + M - 1) 0 (0 + K - 1) (phi s) = some (E s) := by
    obtain ⟨E, _, hE, _⟩ := c33_gradient_3d interp hty N M K 0 0 0 eps scale dx dy dz 1 fl fa phi _ 0 r.phase (flow 0 le_rfl)
    exact ⟨E, hE⟩
  have dE : ∀ t, 0 ≤ t → HasDerivAt E (-S3 N M K 0 0 0 fun i j k => mob t i j k * R t i j k ^ 2) t := by
    intro t ht
    obtain ⟨E', x, hE', hx, hd⟩ := c33_gradient_3d interp hty N M K 0 0 0 eps scale dx dy dz 1 fl fa phi _ t r.phase (flow t ht)
    have e1 : E' = E := funext fun s => Option.some.inj ((hE' s).symm.trans (hE s))
    have e2 : x = R t := by
      funext i j k; exact Option.some.inj ((hx i j k).symm.trans (rate t i j k))
    subst e1 e2
    refine hd.congr_deriv ?_
    congr 1
    exact Finset.sum_congr rfl fun c _ => Finset.sum_congr rfl fun b _ => Finset.sum_congr rfl fun a _ => by ring
  have low := fun t => iso_ge3 hi N M K eps scale dx dy dz fl fa (phi t) (r.phase t) (E t) (hE t)
  set B0 := S3 N M K 0 0 0 (fun i j k => |fl i j k| + |fa i j k|) with hB0
  have w0 : ∀ t i j k, 0 ≤ scale * (16 * phi t i j k * phi t i j k * (1 - phi t i j k) * (1 - phi t i j k)) := by
    intro t i j k
    have := sq_nonneg (phi t i j k * (1 - phi t i j k))
    refine mul_nonneg hs.le ?_
    nlinarith
  have anti : AntitoneOn E (Set.Ici 0) := by
    refine antitoneOn_of_deriv_nonpos (convex_Ici 0) (fun x hx => (dE x hx).continuousAt.continuousWithinAt)
      (fun x hx => ?_) (fun x hx => ?_)
    · rw [interior_Ici] at hx
      exact (dE x (le_of_lt hx)).differentiableAt.differentiableWithinAt
    · rw [interior_Ici] at hx
      rw [(dE x (le_of_lt hx)).deriv]
      exact neg_nonpos.2 (S3_nonneg fun i j k => mul_nonneg (hm0.le.trans (hm x (le_of_lt hx) i j k).1) (sq_nonneg _))
  have bphi : ∀ i j k, Bounded fun t => phi t i j k := by
    intro i j k
    refine ⟨|(E 0 + B0) / (16 * scale)| + 2, fun t ht => well_bounds _ _ ?_⟩
    have c := cell_le_S3 (lo0 := 0) (lo1 := 0) (lo2 := 0) hN hM hK
      (f := fun i j k => scale * (16 * phi t i j k * phi t i j k * (1 - phi t i j k) * (1 - phi t i j k)))
      ⟨fun i j k => by beta_reduce; rw [(r.phase t).1], fun i j k => by beta_reduce; rw [(r.phase t).2.1],
        fun i j k => by beta_reduce; rw [(r.phase t).2.2]⟩ (w0 t) i j k
    have top := anti (Set.mem_Ici.2 le_rfl) (Set.mem_Ici.2 ht) ht
    rw [le_div_iff₀ (by positivity)]
    linarith [low t]
  have bm : ∀ i j k, Bounded fun t => mob t i j k := fun i j k => ⟨m1, fun t ht => by
    rw [abs_of_nonneg (hm0.le.trans (hm t ht i j k).1)]; exact (hm t ht i j k).2⟩
  have bR : ∀ i j k, Bounded fun t => R t i j k := by
    intro i j k
    have sl : Bounded fun t => H' (phi t i j k) := slope_bounded hi _ _ fun t => hH' (phi t i j k)
    simp only [hR, div3, gradFlux3X, gradFlux3Y, gradFlux3Z]
    repeat' first | exact bphi _ _ _ | exact sl | exact Bounded.const _ | apply Bounded.sub | apply Bounded.add | apply Bounded.mul
  have tphi : ∀ i j k, Tame fun t => phi t i j k := fun i j k =>
    Tame.of_deriv (bphi i j k) (fun t ht => flow t ht i j k) ((bm i j k).mul (bR i j k))
  have tR : ∀ i j k, Tame fun t => R t i j k := by
    intro i j k
    have sl : Tame fun t => H' (phi t i j k) := slope_tame hi (tphi i j k) fun t => hH' (phi t i j k)
    simp only [hR, div3, gradFlux3X, gradFlux3Y, gradFlux3Z]
    repeat' first | exact tphi _ _ _ | exact sl | exact Tame.const _ | apply Tame.sub | apply Tame.add | apply Tame.mul
  set A : ℝ → ℝ := fun t => S3 N M K 0 0 0 fun i j k => R t i j k ^ 2 with hA
  have A0 : ∀ t, 0 ≤ A t := fun t => S3_nonneg fun i j k => sq_nonneg _
  have lim : Tendsto (fun t => m0 * A t) atTop (𝓝 0) := by
    refine fades (V := E) (-B0) (fun t _ => ?_) (fun t ht => ⟨_, dE t ht, neg_le_neg ?_⟩) (fun t _ => mul_nonneg hm0.le (A0 t))
      ((Tame.const _).mul (S3_tame fun i j k => (tR i j k).pow_two))
    · have := S3_nonneg (N := N) (M := M) (K := K) (lo0 := 0) (lo1 := 0) (lo2 := 0) (w0 t)
      linarith [low t]
    · rw [← S3_mul]
      exact S3_le fun i j k => mul_le_mul_of_nonneg_right (hm t ht i j k).1 (sq_nonneg _)
  have lA : Tendsto A atTop (𝓝 0) := by
    have := lim.div_const m0
    rw [zero_div] at this
    exact this.congr fun t => mul_div_cancel_left₀ _ hm0.ne'
  have cell : ∀ a < N, ∀ b < M, ∀ c < K,
      Tendsto (fun t => deriv (fun s => phi s (0 + (a : ℤ)) (0 + (b : ℤ)) (0 + (c : ℤ))) t) atTop (𝓝 0) := by
    intro a ha b hb c hc
    have l : Tendsto (fun t => R t (0 + (a : ℤ)) (0 + (b : ℤ)) (0 + (c : ℤ))) atTop (𝓝 0) :=
      tendsto_of_sq (squeeze_zero (fun t => sq_nonneg _) (fun t => box_le_S3 (f := fun i j k => R t i j k ^ 2)
        (fun i j k => sq_nonneg _) ha hb hc) lA)
    refine (bounded_mul_tendsto (bm (0 + (a : ℤ)) (0 + (b : ℤ)) (0 + (c : ℤ))) l).congr' ?_
    filter_upwards [eventually_ge_atTop 0] with t ht
    exact ((flow t ht _ _ _).deriv).symm
  have per : ∀ t, Periodic3 N M K fun i j k => deriv (fun s => phi s i j k) t := fun t =>
    ⟨fun i j k => by simp only [(r.phase _).1], fun i j k => by simp only [(r.phase _).2.1], fun i j k => by simp only [(r.phase _).2.2]⟩
  obtain ⟨a, ha, b, hb, c, hc, e⟩ := copy3 hN hM hK 0 0 0 i j k
  exact (cell a ha b hb c hc).congr fun t => (e _ (per t)).symm

/-- A run the theorems speak about: columns of hot and cold cells even out. -/
example : Run3 .delta 'l' 2 2 3 1 1 1 1 1 0 1 0 1 (1 / 8) (fun t _ _ _ => 2 + Real.sin t) (fun _ _ _ _ => 1)
    (fun t i j _ => 1 + Real.exp (-t) * chess i j) := by
  have xm : ∀ i j, chess (i - 1) j = -chess i j := fun i j => by
    have := chess_x (i - 1) j; rw [sub_add_cancel] at this; linarith
  have ym : ∀ i j, chess i (j - 1) = -chess i j := fun i j => by
    have := chess_y i (j - 1); rw [sub_add_cancel] at this; linarith
  refine ⟨fun t => ⟨fun _ _ _ => rfl, fun _ _ _ => rfl, fun _ _ _ => rfl⟩, fun t => ⟨fun i j k => ?_, fun i j k => ?_, fun _ _ _ => rfl⟩,
    fun t _ => ?_, 1, 3, one_pos, fun t _ i j k => ⟨by linarith [Real.neg_one_le_sin t], by linarith [Real.sin_le_one t]⟩⟩
  · beta_reduce
    rw [show i + ((2 : ℕ) : ℤ) = i + 1 + 1 by push_cast; ring, chess_x, chess_x, neg_neg]
  · beta_reduce
    rw [show j + ((2 : ℕ) : ℤ) = j + 1 + 1 by push_cast; ring, chess_y, chess_y, neg_neg]
  · refine ⟨fun _ _ _ => 0, fun i j k => hasDerivAt_const _ _, fun i j k => ?_, fun i j k => ?_⟩
    · rw [rate_some3 .delta 1 1 1 1 1 0 1 0 one_ne_zero]
      simp [netForce3, div3, gradFlux3X, gradFlux3Y, gradFlux3Z]
    · have h := ((Real.hasDerivAt_exp (-t)).comp t (hasDerivAt_neg t)).mul_const (chess i j)
      refine (h.const_add 1).congr_deriv ?_
      simp only [rhsTemp3, laplacian3, if_true, chess_x, chess_y, xm, ym]
      ring

end AMPE.MeltRest.Props
