import Verif.Proofs.GrainSystem
import Verif.Props.MeltRest3

/-!
# C158: a melt has exactly one history
-/

namespace AMPE.MeltHistory.Props

open AMPE.Functions AMPE.Flux AMPE.PhaseRHS AMPE.PhaseRHS.Props AMPE.Thermal AMPE.Thermal.Props AMPE.MeltFlow AMPE.MeltFlow.Props AMPE.Rest
  AMPE.MeltRest.Props AMPE.Existence AMPE.GrainSystem Filter Topology Set

/-! ## Specification -/

/-- A history of a closed sample of a melt with the linear interpolation, from time 0 to time `τ`: phase and temperature start as given,
repeat with the sample, and move as the code says. -/
structure History2 (kind : Kind) (N M : ℕ) (eps scale dx dy fa tm L cp D : ℝ) (mob phi0 T0 : Field2) (τ : ℝ) (phi T : ℝ → Field2) : Prop where
  phase0 : phi 0 = phi0
  temp0 : T 0 = T0
  phase : ∀ t, Periodic2 N M (phi t)
  temp : ∀ t, Periodic2 N M (T t)
  moves : ∀ t, 0 ≤ t → t ≤ τ → Follows2 kind 'l' eps scale dx dy fa tm L cp D mob phi T t

/-- The same in 3D. -/
structure History3 (kind : Kind) (N M K : ℕ) (eps scale dx dy dz fa tm L cp D : ℝ) (mob phi0 T0 : Field3) (τ : ℝ) (phi T : ℝ → Field3) : Prop where
  phase0 : phi 0 = phi0
  temp0 : T 0 = T0
  phase : ∀ t, Periodic3 N M K (phi t)
  temp : ∀ t, Periodic3 N M K (T t)
  moves : ∀ t, 0 ≤ t → t ≤ τ → Follows3 kind 'l' eps scale dx dy dz fa tm L cp D mob phi T t

/-! ## 2D -/

section
variable {N M : ℕ}

/-- The phase that repeats what the cells of the sample hold (`true`), and the temperature (`false`). -/
def part2 (b : Bool) (y : Bool × ZMod N × ZMod M → ℝ) : Field2 := fun i j => y (b, (i : ZMod N), (j : ZMod M))

theorem part2_per (b : Bool) (y : Bool × ZMod N × ZMod M → ℝ) : Periodic2 N M (part2 b y) :=
  ⟨fun i j => by simp [part2], fun i j => by simp [part2]⟩

/-- Rate of the phase. -/
noncomputable def speed2 (kind : Kind) (eps scale dx dy tm L : ℝ) (mob T phi : Field2) (i j : ℤ) : ℝ :=
  mob i j * netForce2 kind eps scale dx dy tm L (fun _ _ => 1) T phi i j

/-- The rates of the system. -/
noncomputable def rates2 (kind : Kind) (eps scale dx dy tm L cp D : ℝ) (N M : ℕ) (mob : Field2) (y : Bool × ZMod N × ZMod M → ℝ) :
    Bool × ZMod N × ZMod M → ℝ
  | (true, a, b) => speed2 kind eps scale dx dy tm L mob (part2 false y) (part2 true y) (a.val : ℤ) (b.val : ℤ)
  | (false, a, b) => laplacian2 dx dy D (part2 false y) (a.val : ℤ) (b.val : ℤ)
      + L / cp * speed2 kind eps scale dx dy tm L mob (part2 false y) (part2 true y) (a.val : ℤ) (b.val : ℤ)

theorem rates2_smooth [NeZero N] [NeZero M] (kind : Kind) (eps scale dx dy tm L cp D : ℝ) (mob : Field2) :
    LocallyLipschitz (rates2 kind eps scale dx dy tm L cp D N M mob) := by
  refine ContDiff.locallyLipschitz (𝕂 := ℝ) ?_
  refine contDiff_pi.2 fun q => ?_
  rcases q with ⟨b, i, j⟩
  cases b <;>
    simp only [rates2, speed2, netForce2, smooth2, laplacian2, div2, gradFluxX, gradFluxY, part2, div_eq_mul_inv] <;> fun_prop

theorem speed2_per (kind : Kind) (eps scale dx dy tm L : ℝ) {mob T phi : Field2} (hm : Periodic2 N M mob) (hT : Periodic2 N M T)
    (hp : Periodic2 N M phi) : Periodic2 N M (speed2 kind eps scale dx dy tm L mob T phi) := by
  have h := netForce_periodic kind N M eps scale dx dy tm L T phi hT hp
  exact ⟨fun i j => by simp only [speed2, hm.1, h.1], fun i j => by simp only [speed2, hm.2, h.2]⟩

theorem laplacian2_per (dx dy D : ℝ) {u : Field2} (hu : Periodic2 N M u) : Periodic2 N M (laplacian2 dx dy D u) := by
  refine ⟨fun i j => ?_, fun i j => ?_⟩ <;> unfold laplacian2
  · rw [show i + (N : ℤ) - 1 = i - 1 + N by ring, show i + (N : ℤ) + 1 = i + 1 + N by ring]
    simp only [hu.1]
  · rw [show j + (M : ℤ) - 1 = j - 1 + M by ring, show j + (M : ℤ) + 1 = j + 1 + M by ring]
    simp only [hu.2]

variable {kind : Kind} {eps scale dx dy fa tm L cp D : ℝ}

theorem follows2_of [NeZero N] [NeZero M] (htm : 0 < tm) {mob : Field2} (hm : Periodic2 N M mob) (y : ℝ → Bool × ZMod N × ZMod M → ℝ) (t : ℝ)
    (h : ∀ q, HasDerivAt (fun s => y s q) (rates2 kind eps scale dx dy tm L cp D N M mob (y t) q) t) :
    Follows2 kind 'l' eps scale dx dy fa tm L cp D mob (fun s => part2 true (y s)) (fun s => part2 false (y s)) t := by
  have sp := speed2_per kind eps scale dx dy tm L hm (part2_per false (y t)) (part2_per true (y t))
  have lp := laplacian2_per dx dy D (part2_per false (y t))
  refine ⟨speed2 kind eps scale dx dy tm L mob (part2 false (y t)) (part2 true (y t)), fun i j => ?_,
    fun i j => rate_some kind eps scale dx dy fa tm L htm.ne' mob _ _ i j, fun i j => ?_⟩
  · have := h (true, (i : ZMod N), (j : ZMod M))
    simp only [rates2] at this
    rwa [same2 sp (i := ((i : ZMod N).val : ℤ)) (i' := i) (j := ((j : ZMod M).val : ℤ)) (j' := j) (by simp) (by simp)] at this
  · have := h (false, (i : ZMod N), (j : ZMod M))
    simp only [rates2] at this
    rwa [same2 sp (i := ((i : ZMod N).val : ℤ)) (i' := i) (j := ((j : ZMod M).val : ℤ)) (j' := j) (by simp) (by simp),
      same2 lp (i := ((i : ZMod N).val : ℤ)) (i' := i) (j := ((j : ZMod M).val : ℤ)) (j' := j) (by simp) (by simp)] at this

theorem low2 (htm : 0 < tm) (hcp : 0 < cp) (u T : Field2) (hu : Periodic2 N M u) (hT : Periodic2 N M T) (e : ℝ)
    (h : interfaceEnergy2 eps scale dx dy (fun _ => 1) 0 (0 + N - 1) 0 (0 + M - 1) u = some e) :
    S2 N M 0 0 (fun i j => scale * (16 * u i j * u i j * (1 - u i j) * (1 - u i j)))
      + cp / (4 * tm) * S2 N M 0 0 (fun i j => (T i j - tm) * (T i j - tm)) ≤ e + 1 * stored2 kind N M 0 0 cp tm T := by
  have upt : Periodic2 N M fun i j => T i j - tm := ⟨fun i j => by beta_reduce; rw [hT.1], fun i j => by beta_reduce; rw [hT.2]⟩
  have ep := interface_ge eps scale dx dy N M 0 0 u hu e h
  have pos := smooth2_pos (lo0 := 0) (lo1 := 0) (share2_bounds kind).1 _ upt
  have sp : 0 ≤ S2 N M 0 0 fun i j => (T i j - tm) * (T i j - tm) := S2_nonneg fun i j => mul_self_nonneg _
  have hk : 1 / 2 ≤ 1 - 8 * share2 kind := by cases kind <;> norm_num [share2]
  have q := mul_le_mul_of_nonneg_right hk sp
  have lower : cp / (4 * tm) * S2 N M 0 0 (fun i j => (T i j - tm) * (T i j - tm)) ≤ stored2 kind N M 0 0 cp tm T := by
    unfold stored2
    rw [show cp / (4 * tm) = cp / (2 * tm) * (1 / 2) by field_simp; norm_num, mul_assoc]
    exact mul_le_mul_of_nonneg_left (le_trans q pos) (by positivity)
  linarith

/-- A bound from the energy. -/
theorem bound2 (hN : 0 < N) (hM : 0 < M) (hs : 0 < scale) (htm : 0 < tm) (hcp : 0 < cp) (u T : Field2) (hu : Periodic2 N M u)
    (hT : Periodic2 N M T) (v : ℝ) (h : S2 N M 0 0 (fun i j => scale * (16 * u i j * u i j * (1 - u i j) * (1 - u i j)))
      + cp / (4 * tm) * S2 N M 0 0 (fun i j => (T i j - tm) * (T i j - tm)) ≤ v) (i j : ℤ) :
    |u i j| ≤ |v / (16 * scale)| + 2 ∧ |T i j| ≤ tm + 1 + |v / (cp / (4 * tm))| := by
  have w0 : ∀ i j, 0 ≤ scale * (16 * u i j * u i j * (1 - u i j) * (1 - u i j)) := by
    intro i j
    have := sq_nonneg (u i j * (1 - u i j))
    refine mul_nonneg hs.le ?_
    nlinarith
  constructor
  · refine well_bounds _ _ ?_
    have c := cell_le_S2 (lo0 := 0) (lo1 := 0) hN hM (f := fun i j => scale * (16 * u i j * u i j * (1 - u i j) * (1 - u i j)))
      ⟨fun i j => by beta_reduce; rw [hu.1], fun i j => by beta_reduce; rw [hu.2]⟩ w0 i j
    have p : 0 ≤ cp / (4 * tm) * S2 N M 0 0 (fun i j => (T i j - tm) * (T i j - tm)) :=
      mul_nonneg (by positivity) (S2_nonneg fun i j => mul_self_nonneg _)
    rw [le_div_iff₀ (by positivity)]
    linarith
  · have c := cell_le_S2 (lo0 := 0) (lo1 := 0) hN hM (f := fun i j => (T i j - tm) * (T i j - tm))
      ⟨fun i j => by beta_reduce; rw [hT.1], fun i j => by beta_reduce; rw [hT.2]⟩ (fun i j => mul_self_nonneg _) i j
    have p : 0 ≤ S2 N M 0 0 (fun i j => scale * (16 * u i j * u i j * (1 - u i j) * (1 - u i j))) := S2_nonneg w0
    have q : (T i j - tm) * (T i j - tm) ≤ v / (cp / (4 * tm)) := by
      rw [le_div_iff₀ (by positivity)]
      have := mul_le_mul_of_nonneg_left c (show 0 ≤ cp / (4 * tm) by positivity)
      linarith
    have q' := q.trans (le_abs_self _)
    rw [abs_le]
    constructor <;> nlinarith [sq_nonneg (T i j - tm - 1), sq_nonneg (T i j - tm + 1)]

end

/-- **C158** (2D): from every state of the sample there is a history of phase and temperature for all times. -/
theorem c158_exists (kind : Kind) (N M : ℕ) (hN : 0 < N) (hM : 0 < M) (eps scale dx dy fa tm L cp D : ℝ) (hs : 0 < scale) (htm : 0 < tm)
    (hcp : 0 < cp) (hD : 0 ≤ D) (mob : Field2) (hm : Periodic2 N M mob) (hmob : ∀ i j, 0 ≤ mob i j) (phi0 T0 : Field2)
    (hp0 : Periodic2 N M phi0) (hT0 : Periodic2 N M T0) :
    ∃ phi T, ∀ τ, History2 kind N M eps scale dx dy fa tm L cp D mob phi0 T0 τ phi T := by
  haveI : NeZero N := ⟨hN.ne'⟩
  haveI : NeZero M := ⟨hM.ne'⟩
  choose E hE using fun u => c108_defined eps scale dx dy 1 N M 0 0 u
  set x0 : Bool × ZMod N × ZMod M → ℝ := fun q => if q.1 then phi0 (q.2.1.val : ℤ) (q.2.2.val : ℤ) else T0 (q.2.1.val : ℤ) (q.2.2.val : ℤ)
    with hx0
  have b1 : part2 true x0 = phi0 := by
    funext i j
    exact same2 hp0 (by simp) (by simp)
  have b2 : part2 false x0 = T0 := by
    funext i j
    exact same2 hT0 (by simp) (by simp)
  set V : (Bool × ZMod N × ZMod M → ℝ) → ℝ := fun x => E (part2 true x) + 1 * stored2 kind N M 0 0 cp tm (part2 false x) with hV
  obtain ⟨y, y0, hy⟩ := exists_forever (rates2 kind eps scale dx dy tm L cp D N M mob) (rates2_smooth kind eps scale dx dy tm L cp D mob) V
    (fun y t h => c108_decay_partial kind N M 0 0 eps scale dx dy fa tm L cp D 1 mob (fun s => part2 true (y s)) (fun s => part2 false (y s)) t
      htm hcp hD zero_le_one hmob (fun s => part2_per _ _) (fun s => part2_per _ _) (follows2_of (fa := fa) htm hm y t h)
      (fun s => E (part2 true (y s))) fun s => hE _)
    x0 ((|V x0 / (16 * scale)| + 2) + (tm + 1 + |V x0 / (cp / (4 * tm))|))
    (fun x hx q => by
      have l := low2 (kind := kind) htm hcp (part2 true x) (part2 false x) (part2_per _ _) (part2_per _ _) _ (hE _)
      have b := bound2 hN hM hs htm hcp (part2 true x) (part2 false x) (part2_per _ _) (part2_per _ _) (V x0) (l.trans hx)
        (q.2.1.val : ℤ) (q.2.2.val : ℤ)
      rcases q with ⟨c, i, j⟩
      have e : ∀ c, part2 c x (i.val : ℤ) (j.val : ℤ) = x (c, i, j) := fun c => by simp [part2]
      simp only [e] at b
      have n1 := abs_nonneg (V x0 / (16 * scale))
      have n2 := abs_nonneg (V x0 / (cp / (4 * tm)))
      cases c
      · linarith [b.2]
      · linarith [b.1])
  refine ⟨fun s => part2 true (y s), fun s => part2 false (y s), fun τ => ⟨by simp only [y0, b1], by simp only [y0, b2],
    fun _ => part2_per _ _, fun _ => part2_per _ _, fun t ht _ => follows2_of htm hm y t (hy t ht)⟩⟩

/-- **C158** (2D): and only one, whatever the coefficients and mobilities. -/
theorem c158_unique (kind : Kind) (N M : ℕ) (hN : 0 < N) (hM : 0 < M) (eps scale dx dy fa tm L cp D : ℝ) (htm : 0 < tm) (mob : Field2)
    (phi0 T0 : Field2) (τ : ℝ) (phi T phi' T' : ℝ → Field2)
    (h : History2 kind N M eps scale dx dy fa tm L cp D mob phi0 T0 τ phi T)
    (h' : History2 kind N M eps scale dx dy fa tm L cp D mob phi0 T0 τ phi' T') (t : ℝ) (ht : 0 ≤ t) (htτ : t ≤ τ) :
    phi' t = phi t ∧ T' t = T t := by
  haveI : NeZero N := ⟨hN.ne'⟩
  haveI : NeZero M := ⟨hM.ne'⟩
  have red : ∀ {φ θ : ℝ → Field2}, History2 kind N M eps scale dx dy fa tm L cp D mob phi0 T0 τ φ θ →
      ∃ y : ℝ → Bool × ZMod N × ZMod M → ℝ, (∀ s, part2 true (y s) = φ s ∧ part2 false (y s) = θ s) ∧
        (y 0 = fun q => if q.1 then phi0 (q.2.1.val : ℤ) (q.2.2.val : ℤ) else T0 (q.2.1.val : ℤ) (q.2.2.val : ℤ)) ∧
        ∀ t ∈ Icc 0 τ, ∀ q, HasDerivAt (fun s => y s q) (rates2 kind eps scale dx dy tm L cp D N M mob (y t) q) t := by
    intro φ θ h
    set y : ℝ → Bool × ZMod N × ZMod M → ℝ := fun s q => if q.1 then φ s (q.2.1.val : ℤ) (q.2.2.val : ℤ) else θ s (q.2.1.val : ℤ) (q.2.2.val : ℤ)
      with hy
    have bp : ∀ s, part2 true (y s) = φ s := fun s => by funext i j; exact same2 (h.phase s) (by simp) (by simp)
    have bt : ∀ s, part2 false (y s) = θ s := fun s => by funext i j; exact same2 (h.temp s) (by simp) (by simp)
    refine ⟨y, fun s => ⟨bp s, bt s⟩, by simp only [hy, h.phase0, h.temp0], fun t ht q => ?_⟩
    obtain ⟨v, hv, hr, hTd⟩ := h.moves t ht.1 ht.2
    have e2 : ∀ i j, v i j = speed2 kind eps scale dx dy tm L mob (θ t) (φ t) i j := fun i j =>
      Option.some.inj ((hr i j).symm.trans (rate_some kind eps scale dx dy fa tm L htm.ne' mob _ _ i j))
    rcases q with ⟨b, i, j⟩
    cases b
    · have := hTd (i.val : ℤ) (j.val : ℤ)
      simp only [rhsTemp2, if_true, e2] at this
      simp only [rates2, bp, bt]
      exact this
    · have := hv (i.val : ℤ) (j.val : ℤ)
      simp only [rates2, bp, bt, ← e2]
      exact this
  obtain ⟨y, ey, y0, hy⟩ := red h
  obtain ⟨z, ez, z0, hz⟩ := red h'
  have := unique_of _ (rates2_smooth kind eps scale dx dy tm L cp D mob) τ y z hy hz (y0.trans z0.symm) t ⟨ht, htτ⟩
  rw [← (ey t).1, ← (ey t).2, ← (ez t).1, ← (ez t).2, this]
  exact ⟨rfl, rfl⟩

theorem mob_bounds2 {N M : ℕ} (hN : 0 < N) (hM : 0 < M) (mob : Field2) (hm : Periodic2 N M mob) (hmob : ∀ i j, 0 < mob i j) :
    ∃ m0 m1 : ℝ, 0 < m0 ∧ ∀ i j, m0 ≤ mob i j ∧ mob i j ≤ m1 := by
  have ne : (Finset.range N ×ˢ Finset.range M).Nonempty := ⟨(0, 0), by simp [hN, hM]⟩
  obtain ⟨p, -, hp⟩ := Finset.exists_min_image (Finset.range N ×ˢ Finset.range M) (fun p => mob (0 + (p.1 : ℤ)) (0 + (p.2 : ℤ))) ne
  obtain ⟨q, -, hq⟩ := Finset.exists_max_image (Finset.range N ×ˢ Finset.range M) (fun p => mob (0 + (p.1 : ℤ)) (0 + (p.2 : ℤ))) ne
  refine ⟨mob (0 + (p.1 : ℤ)) (0 + (p.2 : ℤ)), mob (0 + (q.1 : ℤ)) (0 + (q.2 : ℤ)), hmob _ _, fun i j => ?_⟩
  obtain ⟨a, ha, b, hb, e⟩ := copy2 hN hM 0 0 i j
  rw [e mob hm]
  exact ⟨hp (a, b) (by simp [ha, hb]), hq (a, b) (by simp [ha, hb])⟩

/-- **C158** (2D): with positive mobilities and conductivity that history comes to rest, with one temperature everywhere. -/
theorem c158_rests (kind : Kind) (N M : ℕ) (hN : 0 < N) (hM : 0 < M) (eps scale dx dy fa tm L cp D : ℝ) (hx : dx ≠ 0) (hy : dy ≠ 0)
    (hs : 0 < scale) (htm : 0 < tm) (hcp : 0 < cp) (hD : 0 < D) (mob : Field2) (hm : Periodic2 N M mob) (hmob : ∀ i j, 0 < mob i j)
    (phi0 T0 : Field2) (phi T : ℝ → Field2) (h : ∀ τ, History2 kind N M eps scale dx dy fa tm L cp D mob phi0 T0 τ phi T) (i j : ℤ) :
    Tendsto (fun t => deriv (fun s => phi s i j) t) atTop (𝓝 0) ∧ Tendsto (fun t => deriv (fun s => T s i j) t) atTop (𝓝 0) ∧
      Tendsto (fun t => T t (i + 1) j - T t i j) atTop (𝓝 0) ∧ Tendsto (fun t => T t i (j + 1) - T t i j) atTop (𝓝 0) := by
  obtain ⟨m0, m1, hm0, hb⟩ := mob_bounds2 hN hM mob hm hmob
  exact c151_rest_partial kind N M hN hM eps scale dx dy fa tm L cp D (fun _ => mob) phi T hx hy hs htm hcp hD
    ⟨(h 0).phase, (h 0).temp, fun t ht => (h t).moves t ht le_rfl, m0, m1, hm0, fun _ _ => hb⟩ i j

/-- A phase that is neither solid nor melt, hot and cold columns, and mobilities that differ: there is a history, and it comes to rest. -/
example : ∃ phi T : ℝ → Field2, phi 0 0 0 = 1 / 2 ∧ T 0 0 0 = 3 ∧ T 0 1 0 = 1 ∧
    ∀ i j, Tendsto (fun t => deriv (fun s => phi s i j) t) atTop (𝓝 0) := by
  have per : ∀ a b : ℝ, Periodic2 2 3 fun i _ => if Even i then a else b := fun a b =>
    ⟨fun i j => by simp [Int.even_add], fun i j => rfl⟩
  obtain ⟨phi, T, h⟩ := c158_exists .delta 2 3 (by norm_num) (by norm_num) 1 1 1 1 0 2 1 1 1 one_pos two_pos one_pos zero_le_one
    (fun i _ => if Even i then 1 else 2) (per 1 2) (fun i j => by beta_reduce; split_ifs <;> norm_num) (fun _ _ => 1 / 2)
    (fun i _ => if Even i then 3 else 1) ⟨fun _ _ => rfl, fun _ _ => rfl⟩ (per 3 1)
  refine ⟨phi, T, by rw [(h 0).phase0], by rw [(h 0).temp0]; simp, by rw [(h 0).temp0]; simp, fun i j => ?_⟩
  exact (c158_rests .delta 2 3 (by norm_num) (by norm_num) 1 1 1 1 0 2 1 1 1 one_ne_zero one_ne_zero one_pos two_pos one_pos one_pos
    _ (per 1 2) (fun i j => by split_ifs <;> norm_num) _ _ phi T h i j).1

/-! ## 3D -/

section
variable {N M K : ℕ}

/-- The phase that repeats what the cells of the sample hold (`true`), and the temperature (`false`). -/
def part3 (b : Bool) (y : Bool × ZMod N × ZMod M × ZMod K → ℝ) : Field3 := fun i j k => y (b, (i : ZMod N), (j : ZMod M), (k : ZMod K))

theorem part3_per (b : Bool) (y : Bool × ZMod N × ZMod M × ZMod K → ℝ) : Periodic3 N M K (part3 b y) :=
  ⟨fun i j k => by simp [part3], fun i j k => by simp [part3], fun i j k => by simp [part3]⟩

/-- Rate of the phase. -/
noncomputable def speed3 (kind : Kind) (eps scale dx dy dz tm L : ℝ) (mob T phi : Field3) (i j k : ℤ) : ℝ :=
  mob i j k * netForce3 kind eps scale dx dy dz tm L (fun _ _ _ => 1) T phi i j k

/-- The rates of the system. -/
noncomputable def rates3 (kind : Kind) (eps scale dx dy dz tm L cp D : ℝ) (N M K : ℕ) (mob : Field3) (y : Bool × ZMod N × ZMod M × ZMod K → ℝ) :
    Bool × ZMod N × ZMod M × ZMod K → ℝ
  | (true, a, b, c) => speed3 kind eps scale dx dy dz tm L mob (part3 false y) (part3 true y) (a.val : ℤ) (b.val : ℤ) (c.val : ℤ)
  | (false, a, b, c) => laplacian3 dx dy dz D (part3 false y) (a.val : ℤ) (b.val : ℤ) (c.val : ℤ)
      + L / cp * speed3 kind eps scale dx dy dz tm L mob (part3 false y) (part3 true y) (a.val : ℤ) (b.val : ℤ) (c.val : ℤ)

theorem rates3_smooth [NeZero N] [NeZero M] [NeZero K] (kind : Kind) (eps scale dx dy dz tm L cp D : ℝ) (mob : Field3) :
    LocallyLipschitz (rates3 kind eps scale dx dy dz tm L cp D N M K mob) := by
  refine ContDiff.locallyLipschitz (𝕂 := ℝ) ?_
  refine contDiff_pi.2 fun q => ?_
  rcases q with ⟨b, i, j, k⟩
  cases b <;>
    simp only [rates3, speed3, netForce3, smooth3, laplacian3, div3, gradFlux3X, gradFlux3Y, gradFlux3Z, part3, div_eq_mul_inv] <;> fun_prop

theorem speed3_per (kind : Kind) (eps scale dx dy dz tm L : ℝ) {mob T phi : Field3} (hm : Periodic3 N M K mob) (hT : Periodic3 N M K T)
    (hp : Periodic3 N M K phi) : Periodic3 N M K (speed3 kind eps scale dx dy dz tm L mob T phi) := by
  have h := netForce3_periodic kind N M K eps scale dx dy dz tm L T phi hT hp
  exact ⟨fun i j k => by simp only [speed3, hm.1, h.1], fun i j k => by simp only [speed3, hm.2.1, h.2.1],
    fun i j k => by simp only [speed3, hm.2.2, h.2.2]⟩

theorem laplacian3_per (dx dy dz D : ℝ) {u : Field3} (hu : Periodic3 N M K u) : Periodic3 N M K (laplacian3 dx dy dz D u) := by
  refine ⟨fun i j k => ?_, fun i j k => ?_, fun i j k => ?_⟩ <;> unfold laplacian3
  · rw [show i + (N : ℤ) - 1 = i - 1 + N by ring, show i + (N : ℤ) + 1 = i + 1 + N by ring]
    simp only [hu.1]
  · rw [show j + (M : ℤ) - 1 = j - 1 + M by ring, show j + (M : ℤ) + 1 = j + 1 + M by ring]
    simp only [hu.2.1]
  · rw [show k + (K : ℤ) - 1 = k - 1 + K by ring, show k + (K : ℤ) + 1 = k + 1 + K by ring]
    simp only [hu.2.2]

variable {kind : Kind} {eps scale dx dy dz fa tm L cp D : ℝ}

theorem follows3_of [NeZero N] [NeZero M] [NeZero K] (htm : 0 < tm) {mob : Field3} (hm : Periodic3 N M K mob) (y : ℝ → Bool × ZMod N × ZMod M × ZMod K → ℝ) (t : ℝ)
    (h : ∀ q, HasDerivAt (fun s => y s q) (rates3 kind eps scale dx dy dz tm L cp D N M K mob (y t) q) t) :
    Follows3 kind 'l' eps scale dx dy dz fa tm L cp D mob (fun s => part3 true (y s)) (fun s => part3 false (y s)) t := by
  have sp := speed3_per kind eps scale dx dy dz tm L hm (part3_per false (y t)) (part3_per true (y t))
  have lp := laplacian3_per dx dy dz D (part3_per false (y t))
  refine ⟨speed3 kind eps scale dx dy dz tm L mob (part3 false (y t)) (part3 true (y t)), fun i j k => ?_,
    fun i j k => rate_some3 kind eps scale dx dy dz fa tm L htm.ne' mob _ _ i j k, fun i j k => ?_⟩
  · have := h (true, (i : ZMod N), (j : ZMod M), (k : ZMod K))
    simp only [rates3] at this
    rwa [same3 sp (i := ((i : ZMod N).val : ℤ)) (i' := i) (j := ((j : ZMod M).val : ℤ)) (j' := j) (k := ((k : ZMod K).val : ℤ)) (k' := k) (by simp) (by simp) (by simp)] at this
  · have := h (false, (i : ZMod N), (j : ZMod M), (k : ZMod K))
    simp only [rates3] at this
    rwa [same3 sp (i := ((i : ZMod N).val : ℤ)) (i' := i) (j := ((j : ZMod M).val : ℤ)) (j' := j) (k := ((k : ZMod K).val : ℤ)) (k' := k) (by simp) (by simp) (by simp),
      same3 lp (i := ((i : ZMod N).val : ℤ)) (i' := i) (j := ((j : ZMod M).val : ℤ)) (j' := j) (k := ((k : ZMod K).val : ℤ)) (k' := k) (by simp) (by simp) (by simp)] at this

theorem low3 (htm : 0 < tm) (hcp : 0 < cp) (u T : Field3) (hu : Periodic3 N M K u) (hT : Periodic3 N M K T) (e : ℝ)
    (h : interfaceEnergy3 eps scale dx dy dz (fun _ => 1) 0 (0 + N - 1) 0 (0 + M - 1) 0 (0 + K - 1) u = some e) :
    S3 N M K 0 0 0 (fun i j k => scale * (16 * u i j k * u i j k * (1 - u i j k) * (1 - u i j k)))
      + cp / (4 * tm) * S3 N M K 0 0 0 (fun i j k => (T i j k - tm) * (T i j k - tm)) ≤ e + 1 * stored3 kind N M K 0 0 0 cp tm T := by
  have upt : Periodic3 N M K fun i j k => T i j k - tm := ⟨fun i j k => by beta_reduce; rw [hT.1], fun i j k => by beta_reduce; rw [hT.2.1],
    fun i j k => by beta_reduce; rw [hT.2.2]⟩
  have ep := interface_ge3 eps scale dx dy dz N M K 0 0 0 u hu e h
  have pos := smooth3_pos (lo0 := 0) (lo1 := 0) (lo2 := 0) (share3_bounds kind).1 _ upt
  have sp : 0 ≤ S3 N M K 0 0 0 fun i j k => (T i j k - tm) * (T i j k - tm) := S3_nonneg fun i j k => mul_self_nonneg _
  have hk : 1 / 2 ≤ 1 - 12 * share3 kind := by cases kind <;> norm_num [share3]
  have q := mul_le_mul_of_nonneg_right hk sp
  have lower : cp / (4 * tm) * S3 N M K 0 0 0 (fun i j k => (T i j k - tm) * (T i j k - tm)) ≤ stored3 kind N M K 0 0 0 cp tm T := by
    unfold stored3
    rw [show cp / (4 * tm) = cp / (2 * tm) * (1 / 2) by field_simp; norm_num, mul_assoc]
    exact mul_le_mul_of_nonneg_left (le_trans q pos) (by positivity)
  linarith

/-- A bound from the energy. -/
theorem bound3 (hN : 0 < N) (hM : 0 < M) (hK : 0 < K) (hs : 0 < scale) (htm : 0 < tm) (hcp : 0 < cp) (u T : Field3) (hu : Periodic3 N M K u)
    (hT : Periodic3 N M K T) (v : ℝ) (h : S3 N M K 0 0 0 (fun i j k => scale * (16 * u i j k * u i j k * (1 - u i j k) * (1 - u i j k)))
      + cp / (4 * tm) * S3 N M K 0 0 0 (fun i j k => (T i j k - tm) * (T i j k - tm)) ≤ v) (i j k : ℤ) :
    |u i j k| ≤ |v / (16 * scale)| + 2 ∧ |T i j k| ≤ tm + 1 + |v / (cp / (4 * tm))| := by
  have w0 : ∀ i j k, 0 ≤ scale * (16 * u i j k * u i j k * (1 - u i j k) * (1 - u i j k)) := by
    intro i j k
    have := sq_nonneg (u i j k * (1 - u i j k))
    refine mul_nonneg hs.le ?_
    nlinarith
  constructor
  · refine well_bounds _ _ ?_
    have c := cell_le_S3 (lo0 := 0) (lo1 := 0) (lo2 := 0) hN hM hK (f := fun i j k => scale * (16 * u i j k * u i j k * (1 - u i j k) * (1 - u i j k)))
      ⟨fun i j k => by beta_reduce; rw [hu.1], fun i j k => by beta_reduce; rw [hu.2.1],
    fun i j k => by beta_reduce; rw [hu.2.2]⟩ w0 i j k
    have p : 0 ≤ cp / (4 * tm) * S3 N M K 0 0 0 (fun i j k => (T i j k - tm) * (T i j k - tm)) :=
      mul_nonneg (by positivity) (S3_nonneg fun i j k => mul_self_nonneg _)
    rw [le_div_iff₀ (by positivity)]
    linarith
  · have c := cell_le_S3 (lo0 := 0) (lo1 := 0) (lo2 := 0) hN hM hK (f := fun i j k => (T i j k - tm) * (T i j k - tm))
      ⟨fun i j k => by beta_reduce; rw [hT.1], fun i j k => by beta_reduce; rw [hT.2.1],
    fun i j k => by beta_reduce; rw [hT.2.2]⟩ (fun i j k => mul_self_nonneg _) i j k
    have p : 0 ≤ S3 N M K 0 0 0 (fun i j k => scale * (16 * u i j k * u i j k * (1 - u i j k) * (1 - u i j k))) := S3_nonneg w0
    have q : (T i j k - tm) * (T i j k - tm) ≤ v / (cp / (4 * tm)) := by
      rw [le_div_iff₀ (by positivity)]
      have := mul_le_mul_of_nonneg_left c (show 0 ≤ cp / (4 * tm) by positivity)
      linarith
    have q' := q.trans (le_abs_self _)
    rw [abs_le]
    constructor <;> nlinarith [sq_nonneg (T i j k - tm - 1), sq_nonneg (T i j k - tm + 1)]

end

/-- **C158** (3D): from every state of the sample there is a history of phase and temperature for all times. -/
theorem c158_exists3 (kind : Kind) (N M K : ℕ) (hN : 0 < N) (hM : 0 < M) (hK : 0 < K) (eps scale dx dy dz fa tm L cp D : ℝ) (hs : 0 < scale) (htm : 0 < tm)
    (hcp : 0 < cp) (hD : 0 ≤ D) (mob : Field3) (hm : Periodic3 N M K mob) (hmob : ∀ i j k, 0 ≤ mob i j k) (phi0 T0 : Field3)
    (hp0 : Periodic3 N M K phi0) (hT0 : Periodic3 N M K T0) :
    ∃ phi T, ∀ τ, History3 kind N M K eps scale dx dy dz fa tm L cp D mob phi0 T0 τ phi T := by
  haveI : NeZero N := ⟨hN.ne'⟩
  haveI : NeZero M := ⟨hM.ne'⟩
  haveI : NeZero K := ⟨hK.ne'⟩
  choose E hE using fun u => interface_defined3 eps scale dx dy dz N M K u
  set x0 : Bool × ZMod N × ZMod M × ZMod K → ℝ := fun q => if q.1 then phi0 (q.2.1.val : ℤ) (q.2.2.1.val : ℤ) (q.2.2.2.val : ℤ) else T0 (q.2.1.val : ℤ) (q.2.2.1.val : ℤ) (q.2.2.2.val : ℤ)
    with hx0
  have b1 : part3 true x0 = phi0 := by
    funext i j k
    exact same3 hp0 (by simp) (by simp) (by simp)
  have b2 : part3 false x0 = T0 := by
    funext i j k
    exact same3 hT0 (by simp) (by simp) (by simp)
  set V : (Bool × ZMod N × ZMod M × ZMod K → ℝ) → ℝ := fun x => E (part3 true x) + 1 * stored3 kind N M K 0 0 0 cp tm (part3 false x) with hV
  obtain ⟨y, y0, hy⟩ := exists_forever (rates3 kind eps scale dx dy dz tm L cp D N M K mob) (rates3_smooth kind eps scale dx dy dz tm L cp D mob) V
    (fun y t h => c108_decay3_partial kind N M K 0 0 0 eps scale dx dy dz fa tm L cp D 1 mob (fun s => part3 true (y s)) (fun s => part3 false (y s)) t
      htm hcp hD zero_le_one hmob (fun s => part3_per _ _) (fun s => part3_per _ _) (follows3_of (fa := fa) htm hm y t h)
      (fun s => E (part3 true (y s))) fun s => hE _)
    x0 ((|V x0 / (16 * scale)| + 2) + (tm + 1 + |V x0 / (cp / (4 * tm))|))
    (fun x hx q => by
      have l := low3 (kind := kind) htm hcp (part3 true x) (part3 false x) (part3_per _ _) (part3_per _ _) _ (hE _)
      have b := bound3 hN hM hK hs htm hcp (part3 true x) (part3 false x) (part3_per _ _) (part3_per _ _) (V x0) (l.trans hx)
        (q.2.1.val : ℤ) (q.2.2.1.val : ℤ) (q.2.2.2.val : ℤ)
      rcases q with ⟨c, i, j, k⟩
      have e : ∀ c, part3 c x (i.val : ℤ) (j.val : ℤ) (k.val : ℤ) = x (c, i, j, k) := fun c => by simp [part3]
      simp only [e] at b
      have n1 := abs_nonneg (V x0 / (16 * scale))
      have n2 := abs_nonneg (V x0 / (cp / (4 * tm)))
      cases c
      · linarith [b.2]
      · linarith [b.1])
  refine ⟨fun s => part3 true (y s), fun s => part3 false (y s), fun τ => ⟨by simp only [y0, b1], by simp only [y0, b2],
    fun _ => part3_per _ _, fun _ => part3_per _ _, fun t ht _ => follows3_of htm hm y t (hy t ht)⟩⟩

/-- **C158** (3D): and only one, whatever the coefficients and mobilities. -/
theorem c158_unique3 (kind : Kind) (N M K : ℕ) (hN : 0 < N) (hM : 0 < M) (hK : 0 < K) (eps scale dx dy dz fa tm L cp D : ℝ) (htm : 0 < tm) (mob : Field3)
    (phi0 T0 : Field3) (τ : ℝ) (phi T phi' T' : ℝ → Field3)
    (h : History3 kind N M K eps scale dx dy dz fa tm L cp D mob phi0 T0 τ phi T)
    (h' : History3 kind N M K eps scale dx dy dz fa tm L cp D mob phi0 T0 τ phi' T') (t : ℝ) (ht : 0 ≤ t) (htτ : t ≤ τ) :
    phi' t = phi t ∧ T' t = T t := by
  haveI : NeZero N := ⟨hN.ne'⟩
  haveI : NeZero M := ⟨hM.ne'⟩
  haveI : NeZero K := ⟨hK.ne'⟩
  have red : ∀ {φ θ : ℝ → Field3}, History3 kind N M K eps scale dx dy dz fa tm L cp D mob phi0 T0 τ φ θ →
      ∃ y : ℝ → Bool × ZMod N × ZMod M × ZMod K → ℝ, (∀ s, part3 true (y s) = φ s ∧ part3 false (y s) = θ s) ∧
        (y 0 = fun q => if q.1 then phi0 (q.2.1.val : ℤ) (q.2.2.1.val : ℤ) (q.2.2.2.val : ℤ) else T0 (q.2.1.val : ℤ) (q.2.2.1.val : ℤ) (q.2.2.2.val : ℤ)) ∧
        ∀ t ∈ Icc 0 τ, ∀ q, HasDerivAt (fun s => y s q) (rates3 kind eps scale dx dy dz tm L cp D N M K mob (y t) q) t := by
    intro φ θ h
    set y : ℝ → Bool × ZMod N × ZMod M × ZMod K → ℝ := fun s q => if q.1 then φ s (q.2.1.val : ℤ) (q.2.2.1.val : ℤ) (q.2.2.2.val : ℤ) else θ s (q.2.1.val : ℤ) (q.2.2.1.val : ℤ) (q.2.2.2.val : ℤ)
      with hy
    have bp : ∀ s, part3 true (y s) = φ s := fun s => by funext i j k; exact same3 (h.phase s) (by simp) (by simp) (by simp)
    have bt : ∀ s, part3 false (y s) = θ s := fun s => by funext i j k; exact same3 (h.temp s) (by simp) (by simp) (by simp)
    refine ⟨y, fun s => ⟨bp s, bt s⟩, by simp only [hy, h.phase0, h.temp0], fun t ht q => ?_⟩
    obtain ⟨v, hv, hr, hTd⟩ := h.moves t ht.1 ht.2
    have e2 : ∀ i j k, v i j k = speed3 kind eps scale dx dy dz tm L mob (θ t) (φ t) i j k := fun i j k =>
      Option.some.inj ((hr i j k).symm.trans (rate_some3 kind eps scale dx dy dz fa tm L htm.ne' mob _ _ i j k))
    rcases q with ⟨b, i, j, k⟩
    cases b
    · have := hTd (i.val : ℤ) (j.val : ℤ) (k.val : ℤ)
      simp only [rhsTemp3, if_true, e2] at this
      simp only [rates3, bp, bt]
      exact this
    · have := hv (i.val : ℤ) (j.val : ℤ) (k.val : ℤ)
      simp only [rates3, bp, bt, ← e2]
      exact this
  obtain ⟨y, ey, y0, hy⟩ := red h
  obtain ⟨z, ez, z0, hz⟩ := red h'
  have := unique_of _ (rates3_smooth kind eps scale dx dy dz tm L cp D mob) τ y z hy hz (y0.trans z0.symm) t ⟨ht, htτ⟩
  rw [← (ey t).1, ← (ey t).2, ← (ez t).1, ← (ez t).2, this]
  exact ⟨rfl, rfl⟩

theorem mob_bounds3 {N M K : ℕ} (hN : 0 < N) (hM : 0 < M) (hK : 0 < K) (mob : Field3) (hm : Periodic3 N M K mob) (hmob : ∀ i j k, 0 < mob i j k) :
    ∃ m0 m1 : ℝ, 0 < m0 ∧ ∀ i j k, m0 ≤ mob i j k ∧ mob i j k ≤ m1 := by
  have ne : (Finset.range N ×ˢ Finset.range M ×ˢ Finset.range K).Nonempty := ⟨(0, 0, 0), by simp [hN, hM, hK]⟩
  obtain ⟨p, -, hp⟩ := Finset.exists_min_image (Finset.range N ×ˢ Finset.range M ×ˢ Finset.range K) (fun p => mob (0 + (p.1 : ℤ)) (0 + (p.2.1 : ℤ)) (0 + (p.2.2 : ℤ))) ne
  obtain ⟨q, -, hq⟩ := Finset.exists_max_image (Finset.range N ×ˢ Finset.range M ×ˢ Finset.range K) (fun p => mob (0 + (p.1 : ℤ)) (0 + (p.2.1 : ℤ)) (0 + (p.2.2 : ℤ))) ne
  refine ⟨mob (0 + (p.1 : ℤ)) (0 + (p.2.1 : ℤ)) (0 + (p.2.2 : ℤ)), mob (0 + (q.1 : ℤ)) (0 + (q.2.1 : ℤ)) (0 + (q.2.2 : ℤ)), hmob _ _ _, fun i j k => ?_⟩
  obtain ⟨a, ha, b, hb, c, hc, e⟩ := copy3 hN hM hK 0 0 0 i j k
  rw [e mob hm]
  exact ⟨hp (a, b, c) (by simp [ha, hb, hc]), hq (a, b, c) (by simp [ha, hb, hc])⟩

/-- **C158** (3D): with positive mobilities and conductivity that history comes to rest, with one temperature everywhere. -/
theorem c158_rests3 (kind : Kind) (N M K : ℕ) (hN : 0 < N) (hM : 0 < M) (hK : 0 < K) (eps scale dx dy dz fa tm L cp D : ℝ) (hx : dx ≠ 0) (hy : dy ≠ 0) (hz : dz ≠ 0)
    (hs : 0 < scale) (htm : 0 < tm) (hcp : 0 < cp) (hD : 0 < D) (mob : Field3) (hm : Periodic3 N M K mob) (hmob : ∀ i j k, 0 < mob i j k)
    (phi0 T0 : Field3) (phi T : ℝ → Field3) (h : ∀ τ, History3 kind N M K eps scale dx dy dz fa tm L cp D mob phi0 T0 τ phi T) (i j k : ℤ) :
    Tendsto (fun t => deriv (fun s => phi s i j k) t) atTop (𝓝 0) ∧ Tendsto (fun t => deriv (fun s => T s i j k) t) atTop (𝓝 0) ∧
      Tendsto (fun t => T t (i + 1) j k - T t i j k) atTop (𝓝 0) ∧ Tendsto (fun t => T t i (j + 1) k - T t i j k) atTop (𝓝 0) ∧
      Tendsto (fun t => T t i j (k + 1) - T t i j k) atTop (𝓝 0) := by
  obtain ⟨m0, m1, hm0, hb⟩ := mob_bounds3 hN hM hK mob hm hmob
  exact c151_rest3_partial kind N M K hN hM hK eps scale dx dy dz fa tm L cp D (fun _ => mob) phi T hx hy hz hs htm hcp hD
    ⟨(h 0).phase, (h 0).temp, fun t ht => (h t).moves t ht le_rfl, m0, m1, hm0, fun _ _ => hb⟩ i j k

end AMPE.MeltHistory.Props
