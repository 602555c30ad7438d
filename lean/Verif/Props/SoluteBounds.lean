import Verif.Model.SoluteBounds
import Verif.Proofs.Invariance
import Verif.Props.DiffCoeff
import Verif.Props.Coupling

/-!
# C134: the composition does not become negative
-/

namespace AMPE.SoluteBounds.Props

open AMPE.Functions AMPE.Flux AMPE.DiffCoeff AMPE.DiffCoeff.Props AMPE.Coupling AMPE.PhaseBounds AMPE.Invariance AMPE.SoluteBounds Set

/-! ## Specification -/

/-- The direct neighbours of the cells are cells (periodic and mirrored ghost cells included) or ghost cells that set a face value `v ≥ 0`
(the ghost holds `2 v` minus the value of the cell). -/
def Ghosts2 (cells : Finset (ℤ × ℤ)) (c : Field2) : Prop :=
  ∀ p ∈ cells, ∀ q ∈ [(p.1 + 1, p.2), (p.1 - 1, p.2), (p.1, p.2 + 1), (p.1, p.2 - 1)],
    (∃ r ∈ cells, c q.1 q.2 = c r.1 r.2) ∨ 0 ≤ c q.1 q.2 + c p.1 p.2

def Ghosts3 (cells : Finset (ℤ × ℤ × ℤ)) (c : Field3) : Prop :=
  ∀ p ∈ cells, ∀ q ∈ [(p.1 + 1, p.2.1, p.2.2), (p.1 - 1, p.2.1, p.2.2), (p.1, p.2.1 + 1, p.2.2), (p.1, p.2.1 - 1, p.2.2),
      (p.1, p.2.1, p.2.2 + 1), (p.1, p.2.1, p.2.2 - 1)],
    (∃ r ∈ cells, c q.1 q.2.1 q.2.2 = c r.1 r.2.1 r.2.2) ∨ 0 ≤ c q.1 q.2.1 q.2.2 + c p.1 p.2.1 p.2.2

/-- The frame moves slower than solute diffuses through the x faces with conductances `ke` and `kw`. -/
def Slow (fr : Frame) (dx mob ke kw : ℝ) : Prop :=
  match fr with
  | .fixed => True
  | .centred vel => |vel| * dx ≤ 2 * (mob * ke) ∧ |vel| * dx ≤ 2 * (mob * kw)
  | .upwind _ _ _ => False

/-! ## Exchange with neighbours -/

/-- What a cell gives to and takes from its neighbours is in proportion to the contents: no content becomes negative. -/
theorem keep {ι : Type} (S : Finset ι) (u v : ℝ → ι → ℝ) (T B : ℝ) (n : ℕ)
    (hd : ∀ t ∈ Icc 0 T, ∀ i ∈ S, HasDerivAt (fun s => u s i) (v t i) t) (h0 : ∀ i ∈ S, 0 ≤ u 0 i)
    (hv : ∀ t ∈ Icc 0 T, ∀ i ∈ S, ∃ p q x : Fin n → ℝ, v t i = ∑ m, (p m * x m - q m * u t i) ∧
      ∀ m, 0 ≤ p m ∧ p m ≤ B ∧ 0 ≤ q m ∧ ((∃ j ∈ S, x m = u t j) ∨ 0 ≤ x m + u t i)) :
    ∀ t ∈ Icc 0 T, ∀ i ∈ S, 0 ≤ u t i := by
  refine stays_nonneg S u v T (n * B) 1 one_pos hd h0 fun t ht i hi hmin _ hneg => ?_
  obtain ⟨p, q, x, e, h⟩ := hv t ht i hi
  rw [e]
  have : ∑ _m : Fin n, B * u t i ≤ ∑ m, (p m * x m - q m * u t i) := by
    refine Finset.sum_le_sum fun m _ => ?_
    obtain ⟨h1, h2, h3, h4⟩ := h m
    have hx : u t i ≤ x m := by
      rcases h4 with ⟨j, hj, e⟩ | h4
      · rw [e]; exact hmin j hj
      · linarith
    nlinarith [mul_le_mul_of_nonneg_left hx h1, mul_nonneg h3 (neg_nonneg.2 hneg.le), mul_le_mul_of_nonneg_right h2 (neg_nonneg.2 hneg.le)]
  simpa [mul_assoc] using this

/-! ## Sum over the phases -/

/-- The flux of a species that no other species drives. -/
theorem sum_own {n : ℕ} {f : ℕ → ℝ} {sp : ℕ} (hsp : sp ∈ Finset.Icc 1 n) (h : ∀ k ∈ Finset.Icc 1 n, k ≠ sp → f k = 0) :
    ∑ k ∈ Finset.Icc 1 n, f k = f sp := Finset.sum_eq_single_of_mem sp hsp h

theorem fluxX_regular {dx dy : ℝ} {depth sp : ℕ} (hsp : sp ∈ Finset.Icc 1 depth) {dl da cl ca : ℕ → Field2} {i j : ℤ}
    (hx : ∀ k ∈ Finset.Icc 1 depth, k ≠ sp → dl (slot depth sp k) i j = 0 ∧ da (slot depth sp k) i j = 0) :
    fluxX .regular none dx dy depth dl da cl ca sp i j = 1 / dx * (dl (slot depth sp sp) i j * (cl sp i j - cl sp (i - 1) j)
      + da (slot depth sp sp) i j * (ca sp i j - ca sp (i - 1) j)) := by
  simp only [fluxX, addX, addFluxX]
  rw [sum_own hsp fun k hk hne => by rw [(hx k hk hne).1]; ring, sum_own hsp fun k hk hne => by rw [(hx k hk hne).2]; ring]
  ring

theorem fluxY_regular {dx dy : ℝ} {depth sp : ℕ} (hsp : sp ∈ Finset.Icc 1 depth) {dl da cl ca : ℕ → Field2} {i j : ℤ}
    (hx : ∀ k ∈ Finset.Icc 1 depth, k ≠ sp → dl (slot depth sp k) i j = 0 ∧ da (slot depth sp k) i j = 0) :
    fluxY .regular none dx dy depth dl da cl ca sp i j = 1 / dy * (dl (slot depth sp sp) i j * (cl sp i j - cl sp i (j - 1))
      + da (slot depth sp sp) i j * (ca sp i j - ca sp i (j - 1))) := by
  simp only [fluxY, addY, addFluxY]
  rw [sum_own hsp fun k hk hne => by rw [(hx k hk hne).1]; ring, sum_own hsp fun k hk hne => by rw [(hx k hk hne).2]; ring]
  ring

theorem conduct {d d' a a' B : ℝ} (hd : 0 ≤ d) (hd' : 0 ≤ d') (ha : 0 ≤ a) (ha' : 0 ≤ a') (h1 : d ≤ B) (h2 : d' ≤ B) (h3 : a ≤ B) (h4 : a' ≤ B) :
    0 ≤ d * a + d' * a' ∧ d * a + d' * a' ≤ 2 * (B * B) := by
  have hB : 0 ≤ B := hd.trans h1
  exact ⟨by positivity, by linarith [mul_le_mul h1 h3 ha hB, mul_le_mul h2 h4 ha' hB]⟩

/-- The frame term as an exchange with the two neighbours along x. -/
theorem slow_term {fr : Frame} {dx mob ke kw : ℝ} (hdx : 0 < dx) (h : Slow fr dx mob ke kw) :
    ∃ v, (∀ row i, frameTerm fr dx row i = v * row (i + 1) - v * row (i - 1)) ∧ |v| ≤ mob / (dx * dx) * ke ∧ |v| ≤ mob / (dx * dx) * kw ∨
      ke < 0 ∨ kw < 0 ∨ mob < 0 := by
  by_cases hk : ke < 0 ∨ kw < 0 ∨ mob < 0
  · exact ⟨0, Or.inr hk⟩
  · push Not at hk
    obtain ⟨h1, h2, h3⟩ := hk
    match fr, h with
    | .fixed, _ =>
      refine ⟨0, Or.inl ⟨fun row i => by simp [frameTerm], ?_, ?_⟩⟩ <;> rw [abs_zero] <;> positivity
    | .centred vel, h =>
      refine ⟨0.5 * vel / dx, Or.inl ⟨fun row i => by simp only [frameTerm, PhaseRHS.convect]; ring, ?_, ?_⟩⟩
      · rw [abs_div, abs_of_pos hdx, abs_mul, div_le_iff₀ hdx, abs_of_pos (by norm_num : (0 : ℝ) < 0.5)]
        have e : mob / (dx * dx) * ke * dx = mob * ke / dx := by field_simp
        rw [e, le_div_iff₀ hdx]
        linarith [h.1]
      · rw [abs_div, abs_of_pos hdx, abs_mul, div_le_iff₀ hdx, abs_of_pos (by norm_num : (0 : ℝ) < 0.5)]
        have e : mob / (dx * dx) * kw * dx = mob * kw / dx := by field_simp
        rw [e, le_div_iff₀ hdx]
        linarith [h.2]

/-- **C134, 2D, sum over the phases**: with the regular stencil, no anti-trapping and a diffusion matrix without terms from other species, a
species whose phase compositions are non-negative multiples of its composition in each cell (dilute, partitioned or common composition) does
not become negative, whatever the phase, the temperature and the other species do.  The full claim also asks for the other stencils,
anti-trapping, cross diffusion, fast frames and the upper bound one; these fail, see below. -/
theorem c134_nonneg_2d_partial (fr : ℝ → Frame) (dx dy mob : ℝ) (hdx : 0 < dx) (hdy : 0 < dy) (hmob : 0 ≤ mob) (depth sp : ℕ)
    (hsp : sp ∈ Finset.Icc 1 depth) (dl0 dl1 da0 da1 c cl ca : ℝ → ℕ → Field2) (aL aA : ℝ → Field2) (cells : Finset (ℤ × ℤ)) (T B : ℝ)
    (hsplit : ∀ t ∈ Icc 0 T, ∀ i j, cl t sp i j = aL t i j * c t sp i j ∧ ca t sp i j = aA t i j * c t sp i j)
    (ha : ∀ t ∈ Icc 0 T, ∀ i j, (0 ≤ aL t i j ∧ aL t i j ≤ B) ∧ 0 ≤ aA t i j ∧ aA t i j ≤ B)
    (hd : ∀ t ∈ Icc 0 T, ∀ d ∈ [dl0, dl1, da0, da1], ∀ i j, 0 ≤ d t (slot depth sp sp) i j ∧ d t (slot depth sp sp) i j ≤ B)
    (hx : ∀ t ∈ Icc 0 T, ∀ d ∈ [dl0, dl1, da0, da1], ∀ k ∈ Finset.Icc 1 depth, k ≠ sp → ∀ i j, d t (slot depth sp k) i j = 0)
    (hfr : ∀ t ∈ Icc 0 T, ∀ p ∈ cells, Slow (fr t) dx mob
      (dl0 t (slot depth sp sp) (p.1 + 1) p.2 * aL t (p.1 + 1) p.2 + da0 t (slot depth sp sp) (p.1 + 1) p.2 * aA t (p.1 + 1) p.2)
      (dl0 t (slot depth sp sp) p.1 p.2 * aL t (p.1 - 1) p.2 + da0 t (slot depth sp sp) p.1 p.2 * aA t (p.1 - 1) p.2))
    (hgh : ∀ t ∈ Icc 0 T, Ghosts2 cells (c t sp))
    (hsol : ∀ t ∈ Icc 0 T, ∀ p ∈ cells, HasDerivAt (fun s => c s sp p.1 p.2)
      (rate2 .regular none (fr t) dx dy mob depth (dl0 t) (dl1 t) (da0 t) (da1 t) (c t) (cl t) (ca t) sp p.1 p.2) t)
    (h0 : ∀ p ∈ cells, 0 ≤ c 0 sp p.1 p.2) :
    ∀ t ∈ Icc 0 T, ∀ p ∈ cells, 0 ≤ c t sp p.1 p.2 := by
  set mx := mob / (dx * dx) with hmx
  set my := mob / (dy * dy) with hmy
  have mx0 : 0 ≤ mx := by positivity
  have my0 : 0 ≤ my := by positivity
  have BB : 0 ≤ B * B := mul_self_nonneg B
  refine keep cells (fun t p => c t sp p.1 p.2) _ T (2 * (mx * (2 * (B * B))) + my * (2 * (B * B))) 4 hsol h0 fun t ht p hp => ?_
  obtain ⟨i, j⟩ := p
  simp only
  set s := slot depth sp sp with hs
  have D := hd t ht
  have D0 := fun i j => D dl0 (by simp) i j
  have D1 := fun i j => D dl1 (by simp) i j
  have A0 := fun i j => D da0 (by simp) i j
  have A1 := fun i j => D da1 (by simp) i j
  have X0 : ∀ i j, ∀ k ∈ Finset.Icc 1 depth, k ≠ sp → dl0 t (slot depth sp k) i j = 0 ∧ da0 t (slot depth sp k) i j = 0 := fun i j k hk hne =>
    ⟨hx t ht dl0 (by simp) k hk hne i j, hx t ht da0 (by simp) k hk hne i j⟩
  have X1 : ∀ i j, ∀ k ∈ Finset.Icc 1 depth, k ≠ sp → dl1 t (slot depth sp k) i j = 0 ∧ da1 t (slot depth sp k) i j = 0 := fun i j k hk hne =>
    ⟨hx t ht dl1 (by simp) k hk hne i j, hx t ht da1 (by simp) k hk hne i j⟩
  have a := ha t ht
  have cond0 := fun i j i' j' => conduct (D0 i j).1 (A0 i j).1 (a i' j').1.1 (a i' j').2.1 (D0 i j).2 (A0 i j).2 (a i' j').1.2 (a i' j').2.2
  have cond1 := fun i j i' j' => conduct (D1 i j).1 (A1 i j).1 (a i' j').1.1 (a i' j').2.1 (D1 i j).2 (A1 i j).2 (a i' j').1.2 (a i' j').2.2
  obtain ⟨v, hv⟩ := slow_term hdx (hfr t ht (i, j) hp)
  rcases hv with ⟨hv, hve, hvw⟩ | hv
  swap
  · exfalso
    rcases hv with hv | hv | hv
    · exact absurd hv (not_lt.2 (cond0 _ _ _ _).1)
    · exact absurd hv (not_lt.2 (cond0 _ _ _ _).1)
    · exact absurd hv (not_lt.2 hmob)
  rw [abs_le] at hve hvw
  rw [← hmx] at hve hvw
  simp only at hve hvw
  have G := hgh t ht (i, j) hp
  simp only [List.mem_cons, List.not_mem_nil, or_false, forall_eq_or_imp, forall_eq] at G
  obtain ⟨gE, gW, gN, gS⟩ := G
  have bx : mx * (2 * (B * B)) ≥ 0 := by positivity
  have by' : my * (2 * (B * B)) ≥ 0 := by positivity
  refine ⟨![mx * (dl0 t s (i + 1) j * aL t (i + 1) j + da0 t s (i + 1) j * aA t (i + 1) j) + v,
      mx * (dl0 t s i j * aL t (i - 1) j + da0 t s i j * aA t (i - 1) j) - v,
      my * (dl1 t s i (j + 1) * aL t i (j + 1) + da1 t s i (j + 1) * aA t i (j + 1)),
      my * (dl1 t s i j * aL t i (j - 1) + da1 t s i j * aA t i (j - 1))],
    ![mx * (dl0 t s (i + 1) j * aL t i j + da0 t s (i + 1) j * aA t i j), mx * (dl0 t s i j * aL t i j + da0 t s i j * aA t i j),
      my * (dl1 t s i (j + 1) * aL t i j + da1 t s i (j + 1) * aA t i j), my * (dl1 t s i j * aL t i j + da1 t s i j * aA t i j)],
    ![c t sp (i + 1) j, c t sp (i - 1) j, c t sp i (j + 1), c t sp i (j - 1)], ?_, ?_⟩
  · rw [Fin.sum_univ_four]
    simp only [rate2, rhs2]
    rw [fluxX_regular hsp (X0 _ _), fluxX_regular hsp (X0 _ _), fluxY_regular hsp (X1 _ _), fluxY_regular hsp (X1 _ _), hv]
    simp only [(hsplit t ht _ _).1, (hsplit t ht _ _).2, add_sub_cancel_right]
    simp only [Matrix.cons_val_zero, Matrix.cons_val_one, Matrix.cons_val, hmx, hmy, ← hs]
    field_simp
    ring
  · intro m
    match m with
    | 0 =>
      refine ⟨?_, ?_, mul_nonneg mx0 (cond0 _ _ _ _).1, gE⟩
      · show 0 ≤ _ + v; linarith [hve.1]
      · show _ + v ≤ _; linarith [hve.2, mul_le_mul_of_nonneg_left (cond0 (i + 1) j (i + 1) j).2 mx0]
    | 1 =>
      refine ⟨?_, ?_, mul_nonneg mx0 (cond0 _ _ _ _).1, gW⟩
      · show 0 ≤ _ - v; linarith [hvw.2]
      · show _ - v ≤ _; linarith [hvw.1, mul_le_mul_of_nonneg_left (cond0 i j (i - 1) j).2 mx0]
    | 2 =>
      refine ⟨mul_nonneg my0 (cond1 _ _ _ _).1, ?_, mul_nonneg my0 (cond1 _ _ _ _).1, gN⟩
      show my * _ ≤ _; linarith [mul_le_mul_of_nonneg_left (cond1 i (j + 1) i (j + 1)).2 my0]
    | 3 =>
      refine ⟨mul_nonneg my0 (cond1 _ _ _ _).1, ?_, mul_nonneg my0 (cond1 _ _ _ _).1, gS⟩
      show my * _ ≤ _; linarith [mul_le_mul_of_nonneg_left (cond1 i j i (j - 1)).2 my0]

theorem flux3X_regular {dx : ℝ} {depth sp : ℕ} (hsp : sp ∈ Finset.Icc 1 depth) {dl da cl ca : ℕ → Field3} {i j k : ℤ}
    (hx : ∀ m ∈ Finset.Icc 1 depth, m ≠ sp → dl (slot depth sp m) i j k = 0 ∧ da (slot depth sp m) i j k = 0) :
    addFlux3X dx depth ca da (addFlux3X dx depth cl dl (fun _ _ _ _ => 0)) sp i j k
      = 1 / dx * (dl (slot depth sp sp) i j k * (cl sp i j k - cl sp (i - 1) j k)
        + da (slot depth sp sp) i j k * (ca sp i j k - ca sp (i - 1) j k)) := by
  simp only [addFlux3X]
  rw [sum_own hsp fun k hk hne => by rw [(hx k hk hne).1]; ring, sum_own hsp fun k hk hne => by rw [(hx k hk hne).2]; ring]
  ring

theorem flux3Y_regular {dy : ℝ} {depth sp : ℕ} (hsp : sp ∈ Finset.Icc 1 depth) {dl da cl ca : ℕ → Field3} {i j k : ℤ}
    (hx : ∀ m ∈ Finset.Icc 1 depth, m ≠ sp → dl (slot depth sp m) i j k = 0 ∧ da (slot depth sp m) i j k = 0) :
    addFlux3Y dy depth ca da (addFlux3Y dy depth cl dl (fun _ _ _ _ => 0)) sp i j k
      = 1 / dy * (dl (slot depth sp sp) i j k * (cl sp i j k - cl sp i (j - 1) k)
        + da (slot depth sp sp) i j k * (ca sp i j k - ca sp i (j - 1) k)) := by
  simp only [addFlux3Y]
  rw [sum_own hsp fun k hk hne => by rw [(hx k hk hne).1]; ring, sum_own hsp fun k hk hne => by rw [(hx k hk hne).2]; ring]
  ring

theorem flux3Z_regular {dz : ℝ} {depth sp : ℕ} (hsp : sp ∈ Finset.Icc 1 depth) {dl da cl ca : ℕ → Field3} {i j k : ℤ}
    (hx : ∀ m ∈ Finset.Icc 1 depth, m ≠ sp → dl (slot depth sp m) i j k = 0 ∧ da (slot depth sp m) i j k = 0) :
    addFlux3Z dz depth ca da (addFlux3Z dz depth cl dl (fun _ _ _ _ => 0)) sp i j k
      = 1 / dz * (dl (slot depth sp sp) i j k * (cl sp i j k - cl sp i j (k - 1))
        + da (slot depth sp sp) i j k * (ca sp i j k - ca sp i j (k - 1))) := by
  simp only [addFlux3Z]
  rw [sum_own hsp fun k hk hne => by rw [(hx k hk hne).1]; ring, sum_own hsp fun k hk hne => by rw [(hx k hk hne).2]; ring]
  ring

/-- **C134, 3D, sum over the phases.** -/
theorem c134_nonneg_3d_partial (fr : ℝ → Frame) (dx dy dz mob : ℝ) (hdx : 0 < dx) (hdy : 0 < dy) (hdz : 0 < dz) (hmob : 0 ≤ mob)
    (depth sp : ℕ) (hsp : sp ∈ Finset.Icc 1 depth) (dl0 dl1 dl2 da0 da1 da2 c cl ca : ℝ → ℕ → Field3) (aL aA : ℝ → Field3)
    (cells : Finset (ℤ × ℤ × ℤ)) (T B : ℝ)
    (hsplit : ∀ t ∈ Icc 0 T, ∀ i j k, cl t sp i j k = aL t i j k * c t sp i j k ∧ ca t sp i j k = aA t i j k * c t sp i j k)
    (ha : ∀ t ∈ Icc 0 T, ∀ i j k, (0 ≤ aL t i j k ∧ aL t i j k ≤ B) ∧ 0 ≤ aA t i j k ∧ aA t i j k ≤ B)
    (hd : ∀ t ∈ Icc 0 T, ∀ d ∈ [dl0, dl1, dl2, da0, da1, da2], ∀ i j k,
      0 ≤ d t (slot depth sp sp) i j k ∧ d t (slot depth sp sp) i j k ≤ B)
    (hx : ∀ t ∈ Icc 0 T, ∀ d ∈ [dl0, dl1, dl2, da0, da1, da2], ∀ m ∈ Finset.Icc 1 depth, m ≠ sp → ∀ i j k, d t (slot depth sp m) i j k = 0)
    (hfr : ∀ t ∈ Icc 0 T, ∀ p ∈ cells, Slow (fr t) dx mob
      (dl0 t (slot depth sp sp) (p.1 + 1) p.2.1 p.2.2 * aL t (p.1 + 1) p.2.1 p.2.2
        + da0 t (slot depth sp sp) (p.1 + 1) p.2.1 p.2.2 * aA t (p.1 + 1) p.2.1 p.2.2)
      (dl0 t (slot depth sp sp) p.1 p.2.1 p.2.2 * aL t (p.1 - 1) p.2.1 p.2.2
        + da0 t (slot depth sp sp) p.1 p.2.1 p.2.2 * aA t (p.1 - 1) p.2.1 p.2.2))
    (hgh : ∀ t ∈ Icc 0 T, Ghosts3 cells (c t sp))
    (hsol : ∀ t ∈ Icc 0 T, ∀ p ∈ cells, HasDerivAt (fun s => c s sp p.1 p.2.1 p.2.2)
      (rate3 (fr t) dx dy dz mob depth (dl0 t) (dl1 t) (dl2 t) (da0 t) (da1 t) (da2 t) (c t) (cl t) (ca t) sp p.1 p.2.1 p.2.2) t)
    (h0 : ∀ p ∈ cells, 0 ≤ c 0 sp p.1 p.2.1 p.2.2) :
    ∀ t ∈ Icc 0 T, ∀ p ∈ cells, 0 ≤ c t sp p.1 p.2.1 p.2.2 := by
  set mx := mob / (dx * dx) with hmx
  set my := mob / (dy * dy) with hmy
  set mz := mob / (dz * dz) with hmz
  have mx0 : 0 ≤ mx := by positivity
  have my0 : 0 ≤ my := by positivity
  have mz0 : 0 ≤ mz := by positivity
  have BB : 0 ≤ B * B := mul_self_nonneg B
  refine keep cells (fun t p => c t sp p.1 p.2.1 p.2.2) _ T (2 * (mx * (2 * (B * B))) + my * (2 * (B * B)) + mz * (2 * (B * B))) 6 hsol h0
    fun t ht p hp => ?_
  obtain ⟨i, j, k⟩ := p
  simp only
  set s := slot depth sp sp with hs
  have D := hd t ht
  have D0 := fun i j k => D dl0 (by simp) i j k
  have D1 := fun i j k => D dl1 (by simp) i j k
  have D2 := fun i j k => D dl2 (by simp) i j k
  have A0 := fun i j k => D da0 (by simp) i j k
  have A1 := fun i j k => D da1 (by simp) i j k
  have A2 := fun i j k => D da2 (by simp) i j k
  have X0 : ∀ i j k, ∀ m ∈ Finset.Icc 1 depth, m ≠ sp → dl0 t (slot depth sp m) i j k = 0 ∧ da0 t (slot depth sp m) i j k = 0 :=
    fun i j k m hm hne => ⟨hx t ht dl0 (by simp) m hm hne i j k, hx t ht da0 (by simp) m hm hne i j k⟩
  have X1 : ∀ i j k, ∀ m ∈ Finset.Icc 1 depth, m ≠ sp → dl1 t (slot depth sp m) i j k = 0 ∧ da1 t (slot depth sp m) i j k = 0 :=
    fun i j k m hm hne => ⟨hx t ht dl1 (by simp) m hm hne i j k, hx t ht da1 (by simp) m hm hne i j k⟩
  have X2 : ∀ i j k, ∀ m ∈ Finset.Icc 1 depth, m ≠ sp → dl2 t (slot depth sp m) i j k = 0 ∧ da2 t (slot depth sp m) i j k = 0 :=
    fun i j k m hm hne => ⟨hx t ht dl2 (by simp) m hm hne i j k, hx t ht da2 (by simp) m hm hne i j k⟩
  have a := ha t ht
  have cond0 := fun i j k i' j' k' => conduct (D0 i j k).1 (A0 i j k).1 (a i' j' k').1.1 (a i' j' k').2.1 (D0 i j k).2 (A0 i j k).2
    (a i' j' k').1.2 (a i' j' k').2.2
  have cond1 := fun i j k i' j' k' => conduct (D1 i j k).1 (A1 i j k).1 (a i' j' k').1.1 (a i' j' k').2.1 (D1 i j k).2 (A1 i j k).2
    (a i' j' k').1.2 (a i' j' k').2.2
  have cond2 := fun i j k i' j' k' => conduct (D2 i j k).1 (A2 i j k).1 (a i' j' k').1.1 (a i' j' k').2.1 (D2 i j k).2 (A2 i j k).2
    (a i' j' k').1.2 (a i' j' k').2.2
  obtain ⟨v, hv⟩ := slow_term hdx (hfr t ht (i, j, k) hp)
  rcases hv with ⟨hv, hve, hvw⟩ | hv
  swap
  · exfalso
    rcases hv with hv | hv | hv
    · exact absurd hv (not_lt.2 (cond0 _ _ _ _ _ _).1)
    · exact absurd hv (not_lt.2 (cond0 _ _ _ _ _ _).1)
    · exact absurd hv (not_lt.2 hmob)
  rw [abs_le] at hve hvw
  rw [← hmx] at hve hvw
  simp only at hve hvw
  have G := hgh t ht (i, j, k) hp
  simp only [List.mem_cons, List.not_mem_nil, or_false, forall_eq_or_imp, forall_eq] at G
  obtain ⟨gE, gW, gN, gS, gT, gB⟩ := G
  have bx : mx * (2 * (B * B)) ≥ 0 := by positivity
  have by' : my * (2 * (B * B)) ≥ 0 := by positivity
  have bz : mz * (2 * (B * B)) ≥ 0 := by positivity
  refine ⟨![mx * (dl0 t s (i + 1) j k * aL t (i + 1) j k + da0 t s (i + 1) j k * aA t (i + 1) j k) + v,
      mx * (dl0 t s i j k * aL t (i - 1) j k + da0 t s i j k * aA t (i - 1) j k) - v,
      my * (dl1 t s i (j + 1) k * aL t i (j + 1) k + da1 t s i (j + 1) k * aA t i (j + 1) k),
      my * (dl1 t s i j k * aL t i (j - 1) k + da1 t s i j k * aA t i (j - 1) k),
      mz * (dl2 t s i j (k + 1) * aL t i j (k + 1) + da2 t s i j (k + 1) * aA t i j (k + 1)),
      mz * (dl2 t s i j k * aL t i j (k - 1) + da2 t s i j k * aA t i j (k - 1))],
    ![mx * (dl0 t s (i + 1) j k * aL t i j k + da0 t s (i + 1) j k * aA t i j k), mx * (dl0 t s i j k * aL t i j k + da0 t s i j k * aA t i j k),
      my * (dl1 t s i (j + 1) k * aL t i j k + da1 t s i (j + 1) k * aA t i j k), my * (dl1 t s i j k * aL t i j k + da1 t s i j k * aA t i j k),
      mz * (dl2 t s i j (k + 1) * aL t i j k + da2 t s i j (k + 1) * aA t i j k), mz * (dl2 t s i j k * aL t i j k + da2 t s i j k * aA t i j k)],
    ![c t sp (i + 1) j k, c t sp (i - 1) j k, c t sp i (j + 1) k, c t sp i (j - 1) k, c t sp i j (k + 1), c t sp i j (k - 1)], ?_, ?_⟩
  · rw [Fin.sum_univ_six]
    simp only [rate3, rhs3]
    rw [flux3X_regular hsp (X0 _ _ _), flux3X_regular hsp (X0 _ _ _), flux3Y_regular hsp (X1 _ _ _), flux3Y_regular hsp (X1 _ _ _),
      flux3Z_regular hsp (X2 _ _ _), flux3Z_regular hsp (X2 _ _ _), hv]
    simp only [(hsplit t ht _ _ _).1, (hsplit t ht _ _ _).2, add_sub_cancel_right]
    simp only [Matrix.cons_val_zero, Matrix.cons_val_one, Matrix.cons_val, hmx, hmy, hmz, ← hs]
    field_simp
    ring
  · intro m
    match m with
    | 0 =>
      refine ⟨?_, ?_, mul_nonneg mx0 (cond0 _ _ _ _ _ _).1, gE⟩
      · show 0 ≤ _ + v; linarith [hve.1]
      · show _ + v ≤ _; linarith [hve.2, mul_le_mul_of_nonneg_left (cond0 (i + 1) j k (i + 1) j k).2 mx0]
    | 1 =>
      refine ⟨?_, ?_, mul_nonneg mx0 (cond0 _ _ _ _ _ _).1, gW⟩
      · show 0 ≤ _ - v; linarith [hvw.2]
      · show _ - v ≤ _; linarith [hvw.1, mul_le_mul_of_nonneg_left (cond0 i j k (i - 1) j k).2 mx0]
    | 2 =>
      refine ⟨mul_nonneg my0 (cond1 _ _ _ _ _ _).1, ?_, mul_nonneg my0 (cond1 _ _ _ _ _ _).1, gN⟩
      show my * _ ≤ _; linarith [mul_le_mul_of_nonneg_left (cond1 i (j + 1) k i (j + 1) k).2 my0]
    | 3 =>
      refine ⟨mul_nonneg my0 (cond1 _ _ _ _ _ _).1, ?_, mul_nonneg my0 (cond1 _ _ _ _ _ _).1, gS⟩
      show my * _ ≤ _; linarith [mul_le_mul_of_nonneg_left (cond1 i j k i (j - 1) k).2 my0]
    | 4 =>
      refine ⟨mul_nonneg mz0 (cond2 _ _ _ _ _ _).1, ?_, mul_nonneg mz0 (cond2 _ _ _ _ _ _).1, gT⟩
      show mz * _ ≤ _; linarith [mul_le_mul_of_nonneg_left (cond2 i j (k + 1) i j (k + 1)).2 mz0]
    | 5 =>
      refine ⟨mul_nonneg mz0 (cond2 _ _ _ _ _ _).1, ?_, mul_nonneg mz0 (cond2 _ _ _ _ _ _).1, gB⟩
      show mz * _ ≤ _; linarith [mul_le_mul_of_nonneg_left (cond2 i j k i j (k - 1)).2 mz0]

/-! ## Both bounds when the phases have the composition of the cell -/

/-- The direct neighbours of the cells are cells or ghost cells that set a face value between `lo` and `hi`. -/
def Within2 (cells : Finset (ℤ × ℤ)) (lo hi : ℝ) (c : Field2) : Prop :=
  ∀ p ∈ cells, ∀ q ∈ [(p.1 + 1, p.2), (p.1 - 1, p.2), (p.1, p.2 + 1), (p.1, p.2 - 1)],
    (∃ r ∈ cells, c q.1 q.2 = c r.1 r.2) ∨ lo ≤ (c q.1 q.2 + c p.1 p.2) / 2 ∧ (c q.1 q.2 + c p.1 p.2) / 2 ≤ hi

/-- **C134, one composition for both phases**: the composition stays within any bounds of its initial and boundary values; `lo = 0`, `hi = 1`
is the claim. -/
theorem c134_range_2d_partial (fr : ℝ → Frame) (dx dy mob : ℝ) (hdx : 0 < dx) (hdy : 0 < dy) (hmob : 0 ≤ mob) (depth sp : ℕ)
    (hsp : sp ∈ Finset.Icc 1 depth) (dl0 dl1 da0 da1 c : ℝ → ℕ → Field2) (cells : Finset (ℤ × ℤ)) (T B lo hi : ℝ)
    (hd : ∀ t ∈ Icc 0 T, ∀ d ∈ [dl0, dl1, da0, da1], ∀ i j, 0 ≤ d t (slot depth sp sp) i j ∧ d t (slot depth sp sp) i j ≤ B)
    (hx : ∀ t ∈ Icc 0 T, ∀ d ∈ [dl0, dl1, da0, da1], ∀ k ∈ Finset.Icc 1 depth, k ≠ sp → ∀ i j, d t (slot depth sp k) i j = 0)
    (hfr : ∀ t ∈ Icc 0 T, ∀ p ∈ cells, Slow (fr t) dx mob
      (dl0 t (slot depth sp sp) (p.1 + 1) p.2 + da0 t (slot depth sp sp) (p.1 + 1) p.2)
      (dl0 t (slot depth sp sp) p.1 p.2 + da0 t (slot depth sp sp) p.1 p.2))
    (hgh : ∀ t ∈ Icc 0 T, Within2 cells lo hi (c t sp))
    (hsol : ∀ t ∈ Icc 0 T, ∀ p ∈ cells, HasDerivAt (fun s => c s sp p.1 p.2)
      (rate2 .regular none (fr t) dx dy mob depth (dl0 t) (dl1 t) (da0 t) (da1 t) (c t) (c t) (c t) sp p.1 p.2) t)
    (h0 : ∀ p ∈ cells, c 0 sp p.1 p.2 ∈ Icc lo hi) :
    ∀ t ∈ Icc 0 T, ∀ p ∈ cells, c t sp p.1 p.2 ∈ Icc lo hi := by
  have key : ∀ a b : ℝ, (∀ p ∈ cells, 0 ≤ a * c 0 sp p.1 p.2 + b) →
      (∀ t ∈ Icc 0 T, Ghosts2 cells (fun i j => a * c t sp i j + b)) → ∀ t ∈ Icc 0 T, ∀ p ∈ cells, 0 ≤ a * c t sp p.1 p.2 + b := by
    intro a b h0' hg
    refine c134_nonneg_2d_partial fr dx dy mob hdx hdy hmob depth sp hsp dl0 dl1 da0 da1 (fun t k i j => a * c t k i j + b)
      (fun t k i j => a * c t k i j + b) (fun t k i j => a * c t k i j + b) (fun _ _ _ => 1) (fun _ _ _ => 1) cells T (max B 1)
      (fun t _ i j => by constructor <;> ring) (fun t _ i j => by simp)
      (fun t ht d hdm i j => ⟨(hd t ht d hdm i j).1, (hd t ht d hdm i j).2.trans (le_max_left _ _)⟩) hx
      (fun t ht p hp => by simpa only [mul_one] using hfr t ht p hp) hg ?_ h0'
    intro t ht p hp
    refine (((hsol t ht p hp).const_mul a).add_const b).congr_deriv ?_
    have X0 : ∀ i j, ∀ k ∈ Finset.Icc 1 depth, k ≠ sp → dl0 t (slot depth sp k) i j = 0 ∧ da0 t (slot depth sp k) i j = 0 := fun i j k hk hne =>
      ⟨hx t ht dl0 (by simp) k hk hne i j, hx t ht da0 (by simp) k hk hne i j⟩
    have X1 : ∀ i j, ∀ k ∈ Finset.Icc 1 depth, k ≠ sp → dl1 t (slot depth sp k) i j = 0 ∧ da1 t (slot depth sp k) i j = 0 := fun i j k hk hne =>
      ⟨hx t ht dl1 (by simp) k hk hne i j, hx t ht da1 (by simp) k hk hne i j⟩
    simp only [rate2, rhs2]
    rw [fluxX_regular hsp (X0 _ _), fluxX_regular hsp (X0 _ _), fluxY_regular hsp (X1 _ _), fluxY_regular hsp (X1 _ _),
      fluxX_regular hsp (X0 _ _), fluxX_regular hsp (X0 _ _), fluxY_regular hsp (X1 _ _), fluxY_regular hsp (X1 _ _)]
    have hf := hfr t ht p hp
    revert hf
    cases fr t with
    | fixed => intro _; simp only [frameTerm]; ring
    | centred v => intro _; simp only [frameTerm, PhaseRHS.convect]; ring
    | upwind _ _ _ => intro h; exact h.elim
  intro t ht p hp
  constructor
  · have := key 1 (-lo) (fun p hp => by linarith [(h0 p hp).1]) (fun t ht p hp q hq => by
      rcases hgh t ht p hp q hq with ⟨r, hr, e⟩ | h
      · exact Or.inl ⟨r, hr, by simp only [e]⟩
      · exact Or.inr (by simp only; linarith [h.1])) t ht p hp
    linarith
  · have := key (-1) hi (fun p hp => by linarith [(h0 p hp).2]) (fun t ht p hp q hq => by
      rcases hgh t ht p hp q hq with ⟨r, hr, e⟩ | h
      · exact Or.inl ⟨r, hr, by simp only [e]⟩
      · exact Or.inr (by simp only; linarith [h.2])) t ht p hp
    linarith

/-! ## Phase-gradient form -/

theorem mid_h {s t : ℝ} (hs : 0 ≤ s) (hst : s ≤ t) (ht : t ≤ 1) :
    6 * ((s + t) / 2) * (1 - (s + t) / 2) * (t - s) ≤ 2 * (t * t * (3 - 2 * t)) := by
  have h1 : (s + t) * (t - s) ≤ t * t := by nlinarith
  have h2 : 0 ≤ 1 - (s + t) / 2 := by linarith
  have h3 : 1 - (s + t) / 2 ≤ 1 - t / 2 := by linarith
  have h0 : 0 ≤ (s + t) * (t - s) := mul_nonneg (by linarith) (by linarith)
  have h4 : (s + t) * (t - s) * (1 - (s + t) / 2) ≤ t * t * (1 - t / 2) := mul_le_mul h1 h3 h2 (mul_self_nonneg t)
  nlinarith [mul_self_nonneg t, mul_nonneg (mul_self_nonneg t) (by linarith : 0 ≤ 1 - t)]

theorem mid_p {s t : ℝ} (hs : 0 ≤ s) (hst : s ≤ t) (ht : t ≤ 1) :
    30 * ((s + t) / 2) * ((s + t) / 2) * (1 - (s + t) / 2) * (1 - (s + t) / 2) * (t - s) ≤ 2 * (t * t * t * (10 - 15 * t + 6 * t * t)) := by
  have h2 : 0 ≤ 1 - (s + t) / 2 := by linarith
  have h3 : 1 - (s + t) / 2 ≤ 1 - t / 2 := by linarith
  have ht0 : 0 ≤ t := by linarith
  have t3 : 0 ≤ t * t * t := by positivity
  by_cases h : t ≤ 2 / 3
  · have h1 : (s + t) * (s + t) * (t - s) ≤ 32 / 27 * (t * t * t) := by
      nlinarith [mul_nonneg (mul_self_nonneg (3 * s - t)) (by linarith : 0 ≤ 3 * s + 5 * t)]
    have h0 : 0 ≤ (s + t) * (s + t) * (t - s) := mul_nonneg (mul_nonneg (by linarith) (by linarith)) (by linarith)
    have h5 : (1 - (s + t) / 2) * (1 - (s + t) / 2) ≤ (1 - t / 2) * (1 - t / 2) := mul_le_mul h3 h3 h2 (by linarith)
    have h4 : (s + t) * (s + t) * (t - s) * ((1 - (s + t) / 2) * (1 - (s + t) / 2)) ≤ 32 / 27 * (t * t * t) * ((1 - t / 2) * (1 - t / 2)) :=
      mul_le_mul h1 h5 (mul_nonneg h2 h2) (by positivity)
    have h6 : 7.5 * (32 / 27 * ((1 - t / 2) * (1 - t / 2))) ≤ 20 - 30 * t + 12 * t * t := by nlinarith
    nlinarith [mul_le_mul_of_nonneg_left h6 t3]
  · push Not at h
    have hx : ((s + t) * (1 - (s + t) / 2)) * ((s + t) * (1 - (s + t) / 2)) * (t - s) ≤ (t * (1 - t / 2)) * (t * (1 - t / 2)) * t := by
      have e : (s + t) * (1 - (s + t) / 2) = t * (1 - t / 2) + s * (1 - t - s / 2) := by ring
      have hxp : 0 ≤ (s + t) * (1 - (s + t) / 2) := mul_nonneg (by linarith) h2
      by_cases hd : 1 - t - s / 2 ≤ 0
      · have : (s + t) * (1 - (s + t) / 2) ≤ t * (1 - t / 2) := by rw [e]; nlinarith
        exact mul_le_mul (mul_le_mul this this hxp (by nlinarith)) (by linarith) (by linarith) (mul_self_nonneg _)
      · push Not at hd
        set x0 := t * (1 - t / 2) with hx0
        set d := 1 - t - s / 2 with hdd
        rw [e]
        have hx0' : 0 ≤ x0 := by rw [hx0]; nlinarith
        have key : 2 * d * t ≤ x0 := by rw [hx0, hdd]; nlinarith
        have key2 : (t - s) * (2 * x0 * d + s * (d * d)) ≤ x0 * x0 := by
          have k1 : d * (t - s) ≤ 2 * x0 := by nlinarith
          have k2 : s * d * (d * (t - s)) ≤ s * d * (2 * x0) := mul_le_mul_of_nonneg_left k1 (mul_nonneg hs hd.le)
          nlinarith [mul_le_mul_of_nonneg_left key hx0']
        nlinarith [mul_nonneg hs (sub_nonneg.2 key2)]
    have h6 : 7.5 * ((1 - t / 2) * (1 - t / 2)) ≤ 20 - 30 * t + 12 * t * t := by nlinarith [sq_nonneg (9 * t - 10)]
    nlinarith [mul_le_mul_of_nonneg_left h6 t3]

theorem harm_h {a b : ℝ} (hb : 0 < b) (hba : b ≤ a) (ha : a ≤ 1) :
    6 * (2 * a * b / (a + b)) * (1 - 2 * a * b / (a + b)) * (a - b) ≤ 2 * ((1 - b) * (1 - b) * (3 - 2 * (1 - b))) := by
  have ha0 : 0 < a := by linarith
  have hs : 0 < a + b := by linarith
  have e : 6 * (2 * a * b / (a + b)) * (1 - 2 * a * b / (a + b)) * (a - b)
      = 12 * a * b * ((a - b) * (a * (1 - b) + b * (1 - a))) / ((a + b) * (a + b)) := by
    field_simp; ring
  rw [e, div_le_iff₀ (mul_pos hs hs)]
  have h1 : (a - b) * (a * (1 - b) + b * (1 - a)) ≤ a * ((1 - b) * (1 - b)) := by
    nlinarith [mul_nonneg (mul_nonneg (by linarith : 0 ≤ 1 - b) (by linarith : 0 ≤ 1 - a)) (by linarith : 0 ≤ a - b),
      mul_nonneg hb.le (mul_self_nonneg (1 - a))]
  have h2 : a * (1 + b) ≤ a + b := by nlinarith
  have h3 : a * (1 + b) * (a * (1 + b)) ≤ (a + b) * (a + b) := mul_self_le_mul_self (by positivity) h2
  have h4 : 6 * b ≤ (1 + 2 * b) * ((1 + b) * (1 + b)) := by nlinarith [sq_nonneg (1 - b), pow_pos hb 3]
  have h5 : 6 * (a * a) * b ≤ (1 + 2 * b) * ((a + b) * (a + b)) := by
    have := mul_le_mul_of_nonneg_left h3 (by linarith : 0 ≤ 1 + 2 * b)
    have := mul_le_mul_of_nonneg_left h4 (mul_self_nonneg a)
    nlinarith
  have h6 := mul_le_mul_of_nonneg_left h1 (by positivity : 0 ≤ 12 * a * b)
  have h7 := mul_le_mul_of_nonneg_left h5 (mul_self_nonneg (1 - b))
  nlinarith

theorem poly_p {b : ℝ} (hb : 0 ≤ b) :
    640 / 9 * (b * b) ≤ (1 + 3 * b + 6 * (b * b)) * ((1 + b) * (1 + b) * ((1 + b) * (1 + b))) := by
  nlinarith [mul_nonneg hb (sq_nonneg (b - 37 / 100)), mul_nonneg (mul_nonneg hb hb) (sq_nonneg (b - 37 / 100)), sq_nonneg (b - 37 / 100),
    mul_nonneg (mul_nonneg (mul_nonneg hb hb) hb) (sq_nonneg (b - 37 / 100)), sq_nonneg (b * (b - 37 / 100)), sq_nonneg (b * b * (b - 37 / 100)), pow_nonneg hb 3, pow_nonneg hb 4, pow_nonneg hb 5]

theorem harm_p {a b : ℝ} (hb : 0 < b) (hba : b ≤ a) (ha : a ≤ 1) :
    30 * (2 * a * b / (a + b)) * (2 * a * b / (a + b)) * (1 - 2 * a * b / (a + b)) * (1 - 2 * a * b / (a + b)) * (a - b)
      ≤ 2 * ((1 - b) * (1 - b) * (1 - b) * (10 - 15 * (1 - b) + 6 * (1 - b) * (1 - b))) := by
  have ha0 : 0 < a := by linarith
  have hs : 0 < a + b := by linarith
  obtain ⟨t, ht⟩ : ∃ t, t = 1 - b := ⟨_, rfl⟩
  obtain ⟨s, hs'⟩ : ∃ s, s = 1 - a := ⟨_, rfl⟩
  obtain ⟨S, hS⟩ : ∃ S, S = a + b := ⟨_, rfl⟩
  obtain ⟨x, hx⟩ : ∃ x, x = a * t + b * s := ⟨_, rfl⟩
  rw [← hS] at hs ⊢
  have e1 : 1 - 2 * a * b / S = x / S := by
    rw [eq_div_iff hs.ne', sub_mul, div_mul_cancel₀ _ hs.ne', hx, hS, ht, hs']; ring
  have e2 : a - b = t - s := by rw [ht, hs']; ring
  rw [e1, e2, ← ht]
  have t0 : 0 ≤ t := by linarith
  have s0 : 0 ≤ s := by linarith
  have st : 0 ≤ t - s := by linarith
  have x0 : 0 ≤ x := by rw [hx]; positivity
  have xa : x ≤ a * (t + s) := by rw [hx, mul_add]; linarith [mul_le_mul_of_nonneg_right hba s0]
  have h11 : x * x ≤ a * (t + s) * (a * (t + s)) := mul_self_le_mul_self x0 xa
  have h12 : (t + s) * (t + s) * (t - s) ≤ 32 / 27 * (t * t * t) := by
    nlinarith [mul_nonneg (mul_self_nonneg (3 * s - t)) (by linarith : 0 ≤ 3 * s + 5 * t)]
  have h1 : x * x * (t - s) ≤ a * a * (32 / 27 * (t * t * t)) := by
    calc x * x * (t - s) ≤ a * (t + s) * (a * (t + s)) * (t - s) := mul_le_mul_of_nonneg_right h11 st
      _ = a * a * ((t + s) * (t + s) * (t - s)) := by ring
      _ ≤ _ := mul_le_mul_of_nonneg_left h12 (mul_self_nonneg a)
  have h2 : a * (1 + b) ≤ S := by rw [hS, mul_add, mul_one]; linarith [mul_le_mul_of_nonneg_right ha hb.le]
  have h3 : a * (1 + b) * (a * (1 + b)) ≤ S * S := mul_self_le_mul_self (by positivity) h2
  have h4 : a * (1 + b) * (a * (1 + b)) * (a * (1 + b) * (a * (1 + b))) ≤ S * S * (S * S) := mul_self_le_mul_self (by positivity) h3
  have hq : 10 - 15 * t + 6 * t * t = 1 + 3 * b + 6 * (b * b) := by rw [ht]; ring
  rw [hq]
  have hp := poly_p hb.le
  have q0 : 0 ≤ 1 + 3 * b + 6 * (b * b) := by positivity
  have a4 : 0 ≤ a * a * (a * a) := by positivity
  have h5 : a * a * (a * a) * (640 / 9 * (b * b)) ≤ (1 + 3 * b + 6 * (b * b)) * (S * S * (S * S)) := by
    calc a * a * (a * a) * (640 / 9 * (b * b))
        ≤ a * a * (a * a) * ((1 + 3 * b + 6 * (b * b)) * ((1 + b) * (1 + b) * ((1 + b) * (1 + b)))) := mul_le_mul_of_nonneg_left hp a4
      _ = (1 + 3 * b + 6 * (b * b)) * (a * (1 + b) * (a * (1 + b)) * (a * (1 + b) * (a * (1 + b)))) := by ring
      _ ≤ _ := mul_le_mul_of_nonneg_left h4 q0
  have e3 : 30 * (2 * a * b / S) * (2 * a * b / S) * (x / S) * (x / S) * (t - s)
      = 120 * (a * a) * (b * b) * (x * x * (t - s)) / (S * S * (S * S)) := by
    field_simp; ring
  rw [e3, div_le_iff₀ (by positivity)]
  calc 120 * (a * a) * (b * b) * (x * x * (t - s)) ≤ 120 * (a * a) * (b * b) * (a * a * (32 / 27 * (t * t * t))) :=
        mul_le_mul_of_nonneg_left h1 (by positivity)
    _ = 2 * (t * t * t) * (a * a * (a * a) * (640 / 9 * (b * b))) := by ring
    _ ≤ 2 * (t * t * t) * ((1 + 3 * b + 6 * (b * b)) * (S * S * (S * S))) := mul_le_mul_of_nonneg_left h5 (by positivity)
    _ = _ := by ring

/-- The interpolations of the energies and of the compositions for which the coupling does not outrun the diffusion. -/
def fitting : List (Char × Char) := [('p', 'p'), ('h', 'h'), ('l', 'l'), ('p', 'l'), ('h', 'l')]

/-- Both averages of the phase of a face, arithmetic and harmonic (the default). -/
theorem avg_form {at_ : Char} (hat : at_ = 'a' ∨ at_ = 'h') {a b : ℝ} (ha : 0 ≤ a ∧ a ≤ 1) (hb : 0 ≤ b ∧ b ≤ 1) :
    ∃ v, averageFunc at_ a b = some v ∧ averageFunc at_ b a = some v ∧ 0 ≤ v ∧ v ≤ 1 ∧
      (v = (a + b) / 2 ∨ v = 0 ∨ 0 < a ∧ 0 < b ∧ v = 2 * a * b / (a + b)) := by
  rcases hat with rfl | rfl
  · refine ⟨(a + b) / 2, Coupling.Props.avg_a a b, by rw [Coupling.Props.avg_a, add_comm], by linarith [ha.1, hb.1], by linarith [ha.2, hb.2], Or.inl rfl⟩
  · by_cases h : a < threshold ∨ b < threshold
    · exact ⟨0, by simp [averageFunc, h], by simp [averageFunc, h.symm], le_rfl, zero_le_one, Or.inr (Or.inl rfl)⟩
    · have hth : (0 : ℝ) < threshold := by unfold threshold; norm_num
      have h' : ¬(b < threshold ∨ a < threshold) := fun hc => h hc.symm
      push Not at h
      have a0 : 0 < a := lt_of_lt_of_le hth h.1
      have b0 : 0 < b := lt_of_lt_of_le hth h.2
      have e : 2 / (1 / a + 1 / b) = 2 * a * b / (a + b) := by
        have : a + b ≠ 0 := by positivity
        have : b + a ≠ 0 := by positivity
        field_simp
        ring
      refine ⟨2 * a * b / (a + b), ?_, ?_, by positivity, ?_, Or.inr (Or.inr ⟨a0, b0, rfl⟩)⟩
      · rw [averageFunc, if_neg (by decide), if_pos rfl, if_neg (not_or.2 ⟨not_lt.2 h.1, not_lt.2 h.2⟩), e]
      · rw [averageFunc, if_neg (by decide), if_pos rfl, if_neg h', add_comm (1 / b), e]
      · rw [div_le_one (by positivity)]; nlinarith [ha.2, hb.2]

theorem fits {it ic at_ : Char} (h : (it, ic) ∈ fitting) (hat : at_ = 'a' ∨ at_ = 'h') {a b : ℝ} (ha : 0 ≤ a ∧ a ≤ 1) (hb : 0 ≤ b ∧ b ≤ 1) :
    ∃ v g w, averageFunc at_ a b = some v ∧ averageFunc at_ b a = some v ∧ derivInterpFunc it v = some g ∧ interpFunc ic b = some w ∧
      0 ≤ g ∧ g ≤ 2 ∧ 0 ≤ w ∧ w ≤ 1 ∧ g * (a - b) ≤ 2 * (1 - w) := by
  obtain ⟨m, hm1, hm2, m0, m1, hm⟩ := avg_form hat ha hb
  have q0 : 0 ≤ m * (1 - m) := mul_nonneg m0 (by linarith)
  have q1 : m * (1 - m) ≤ 1 / 4 := by nlinarith [sq_nonneg (2 * m - 1)]
  have gp0 : 0 ≤ 30 * m * m * (1 - m) * (1 - m) := by nlinarith [mul_self_nonneg (m * (1 - m))]
  have gp1 : 30 * m * m * (1 - m) * (1 - m) ≤ 15 / 8 := by nlinarith
  have gh0 : 0 ≤ 6 * m * (1 - m) := by nlinarith
  have gh1 : 6 * m * (1 - m) ≤ 3 / 2 := by nlinarith
  have bp : b * b * b * (10 - 15 * b + 6 * b * b) = 1 - (1 - b) * (1 - b) * (1 - b) * (10 - 15 * (1 - b) + 6 * (1 - b) * (1 - b)) := by ring
  have bh : b * b * (3 - 2 * b) = 1 - (1 - b) * (1 - b) * (3 - 2 * (1 - b)) := by ring
  have wp0 : 0 ≤ b * b * b * (10 - 15 * b + 6 * b * b) :=
    mul_nonneg (mul_nonneg (mul_nonneg hb.1 hb.1) hb.1) (by nlinarith [sq_nonneg (4 * b - 5)])
  have b1 : 0 ≤ 1 - b := by linarith [hb.2]
  have wp1 : 0 ≤ (1 - b) * (1 - b) * (1 - b) * (10 - 15 * (1 - b) + 6 * (1 - b) * (1 - b)) :=
    mul_nonneg (mul_nonneg (mul_nonneg b1 b1) b1) (by nlinarith [sq_nonneg (4 * (1 - b) - 5)])
  have wh0 : 0 ≤ b * b * (3 - 2 * b) := mul_nonneg (mul_self_nonneg b) (by linarith [hb.2])
  have wh1 : 0 ≤ (1 - b) * (1 - b) * (3 - 2 * (1 - b)) := mul_nonneg (mul_self_nonneg _) (by linarith [hb.1])
  simp only [fitting, List.mem_cons, Prod.mk.injEq, List.not_mem_nil, or_false] at h
  rcases h with ⟨rfl, rfl⟩ | ⟨rfl, rfl⟩ | ⟨rfl, rfl⟩ | ⟨rfl, rfl⟩ | ⟨rfl, rfl⟩
  · refine ⟨m, _, _, hm1, hm2, Coupling.Props.deriv_p m0 m1, Coupling.Props.interp_p hb.1 hb.2, gp0, by linarith, wp0, by linarith, ?_⟩
    rcases le_total a b with h | h
    · nlinarith
    · rw [bp]
      rcases hm with hm | rfl | ⟨a0, b0, rfl⟩
      · have := mid_p (s := 1 - a) (t := 1 - b) (by linarith [ha.2]) (by linarith) (by linarith [hb.1])
        have e : 1 - (1 - a + (1 - b)) / 2 = m := by rw [hm]; ring
        have e' : (1 - a + (1 - b)) / 2 = 1 - m := by rw [hm]; ring
        rw [e, e'] at this
        linarith
      · linarith
      · linarith [harm_p b0 h ha.2]
  · refine ⟨m, _, _, hm1, hm2, Coupling.Props.deriv_h m0 m1, Coupling.Props.interp_h hb.1 hb.2, gh0, by linarith, wh0, by linarith, ?_⟩
    rcases le_total a b with h | h
    · nlinarith
    · rw [bh]
      rcases hm with hm | rfl | ⟨a0, b0, rfl⟩
      · have := mid_h (s := 1 - a) (t := 1 - b) (by linarith [ha.2]) (by linarith) (by linarith [hb.1])
        have e : 1 - (1 - a + (1 - b)) / 2 = m := by rw [hm]; ring
        have e' : (1 - a + (1 - b)) / 2 = 1 - m := by rw [hm]; ring
        rw [e, e'] at this
        linarith
      · linarith
      · linarith [harm_h b0 h ha.2]
  · exact ⟨m, _, _, hm1, hm2, Coupling.Props.deriv_l _, Coupling.Props.interp_l hb.1 hb.2, by norm_num, by norm_num, hb.1, hb.2, by linarith [ha.2]⟩
  · refine ⟨m, _, _, hm1, hm2, Coupling.Props.deriv_p m0 m1, Coupling.Props.interp_l hb.1 hb.2, gp0, by linarith, hb.1, hb.2, ?_⟩
    nlinarith [ha.2]
  · refine ⟨m, _, _, hm1, hm2, Coupling.Props.deriv_h m0 m1, Coupling.Props.interp_l hb.1 hb.2, gh0, by linarith, hb.1, hb.2, ?_⟩
    nlinarith [ha.2]

/-- The phase compositions of partitioned solute on the two sides of a face. -/
theorem split_diff {ic : Char} {k phi c w : ℝ} {p : ℝ × ℝ} (hw : interpFunc ic phi = some w) (h : partitionSplit ic k phi c = some p) :
    p.1 - p.2 = (1 - k) / (1 - w + k * w) * c := by
  simp only [partitionSplit, hw, Option.map_some, Option.some.injEq] at h
  rw [← h]
  ring

theorem beta_bounds {κ k w : ℝ} (hκ : 0 < κ) (hk : κ ≤ k) (hk1 : k ≤ 1) (h0 : 0 ≤ w) (h1 : w ≤ 1) :
    0 ≤ (1 - k) / (1 - w + k * w) ∧ (1 - k) / (1 - w + k * w) ≤ 1 / κ ∧ (1 - k) / (1 - w + k * w) * (1 - w) ≤ 1 := by
  have kw : κ ≤ 1 - w + k * w := by nlinarith
  have pw : 0 < 1 - w + k * w := by linarith
  refine ⟨div_nonneg (by linarith) pw.le, ?_, ?_⟩
  · rw [div_le_div_iff₀ pw hκ]; nlinarith
  · rw [div_mul_eq_mul_div, div_le_one pw]; nlinarith

/-- The flux through a face, for partitioned solute: both sides give in proportion to their contents. -/
theorem kks_face {it ic at_ : Char} (h : (it, ic) ∈ fitting) (hat : at_ = 'a' ∨ at_ = 'h') {R κ : ℝ} {l s : Arrhenius} (hR : 0 < R) (hl : 0 ≤ l.d0 ∧ 0 ≤ l.q0)
    (hs : 0 ≤ s.d0 ∧ 0 ≤ s.q0) (hκ : 0 < κ) {a b : ℝ} (ha : 0 ≤ a ∧ a ≤ 1) (hb : 0 ≤ b ∧ b ≤ 1) {t : Pair} (ht : 0 < t.1 ∧ 0 < t.2)
    {ka kb : ℝ} (hka : κ ≤ ka ∧ ka ≤ 1) (hkb : κ ≤ kb ∧ kb ≤ 1) {ca cb : ℝ} {pa pb : ℝ × ℝ}
    (spa : partitionSplit ic ka a ca = some pa) (spb : partitionSplit ic kb b cb = some pb) :
    ∃ d cp x y, kksDiff it at_ R l s (a, b) t = some d ∧ kksCoef it at_ d (b, a) (pb.1, pa.1) (pb.2, pa.2) = some cp ∧
      d * (cb - ca) + cp * (b - a) = x * cb - y * ca ∧ 0 ≤ x ∧ x ≤ (l.d0 + s.d0) * (1 + 1 / κ) ∧ 0 ≤ y ∧ y ≤ (l.d0 + s.d0) * (1 + 1 / κ) := by
  obtain ⟨v, g', w, -, hv, hg', hw, g0, g2, w0, w1, hgw⟩ := fits h hat ha hb
  obtain ⟨v', g, w', hv', -, hg, hw', -, -, w0', w1', hgw'⟩ := fits h hat hb ha
  obtain rfl : v = v' := Option.some.inj (hv.symm.trans hv')
  obtain rfl : g' = g := Option.some.inj (hg'.symm.trans hg)
  have hit : it ∈ Functions.Props.proper := by
    simp only [fitting, List.mem_cons, Prod.mk.injEq, List.not_mem_nil, or_false] at h
    rcases h with ⟨rfl, -⟩ | ⟨rfl, -⟩ | ⟨rfl, -⟩ | ⟨rfl, -⟩ | ⟨rfl, -⟩ <;> simp [Functions.Props.proper]
  obtain ⟨dl, ds, e, dl0, ds0, -, hmax⟩ := c60_between it at_ hit hat R l s hl.1 hs.1 (a, b) t ⟨ha, hb⟩
  have rl := (c60_arrhenius R hR l hl.1 hl.2 t t ht.1 ht.2 le_rfl le_rfl).2.2
  have rs := (c60_arrhenius R hR s hs.1 hs.2 t t ht.1 ht.2 le_rfl le_rfl).2.2
  have hD : dl + ds ≤ l.d0 + s.d0 := hmax.trans (max_le (by linarith [hs.1]) (by linarith [hl.1]))
  have hD0 : 0 ≤ dl + ds := by linarith
  obtain ⟨β0, βκ, β1⟩ := beta_bounds hκ hkb.1 hkb.2 w0 w1
  obtain ⟨γ0, γκ, γ1⟩ := beta_bounds hκ hka.1 hka.2 w0' w1'
  set β := (1 - kb) / (1 - w + kb * w) with hβ
  set γ := (1 - ka) / (1 - w' + ka * w') with hγ
  have db := split_diff hw spb
  have da := split_diff hw' spa
  rw [← hβ] at db
  rw [← hγ] at da
  have κ0 : 0 < 1 / κ := by positivity
  have bx0 : 0 ≤ 1 + g' * β * (b - a) / 2 := by
    nlinarith [mul_le_mul_of_nonneg_left hgw β0]
  have by0 : 0 ≤ 1 - g' * γ * (b - a) / 2 := by
    nlinarith [mul_le_mul_of_nonneg_left hgw' γ0]
  have gb : g' * β ≤ 2 * (1 / κ) := mul_le_mul g2 βκ β0 (by norm_num)
  have gc : g' * γ ≤ 2 * (1 / κ) := mul_le_mul g2 γκ γ0 (by norm_num)
  have bx1 : 1 + g' * β * (b - a) / 2 ≤ 1 + 1 / κ := by
    have : g' * β * (b - a) ≤ g' * β * 1 := mul_le_mul_of_nonneg_left (by linarith [hb.2, ha.1]) (mul_nonneg g0 β0)
    linarith
  have by1 : 1 - g' * γ * (b - a) / 2 ≤ 1 + 1 / κ := by
    have : g' * γ * (a - b) ≤ g' * γ * 1 := mul_le_mul_of_nonneg_left (by linarith [ha.2, hb.1]) (mul_nonneg g0 γ0)
    linarith
  refine ⟨dl + ds, (dl + ds) * g' * (0.5 * (pb.1 + pa.1) - 0.5 * (pb.2 + pa.2)), (dl + ds) * (1 + g' * β * (b - a) / 2),
    (dl + ds) * (1 - g' * γ * (b - a) / 2), by simp [kksDiff, e], ?_, ?_, mul_nonneg hD0 bx0, mul_le_mul hD bx1 bx0 (by linarith),
    mul_nonneg hD0 by0, mul_le_mul hD by1 by0 (by linarith)⟩
  · simp [kksCoef, avgP, hv, hg']
  · have : 0.5 * (pb.1 + pa.1) - 0.5 * (pb.2 + pa.2) = (β * cb + γ * ca) / 2 := by rw [← db, ← da]; ring
    rw [this]; ring

/-- The phases of a cell and its surroundings: fractions, positive temperatures, partition coefficients between `κ` and one, phase
compositions from `partitionSplit`. -/
structure Partitioned2 (ic : Char) (κ : ℝ) (temp phi k cl ca c : Field2) : Prop where
  frac : ∀ i j, 0 ≤ phi i j ∧ phi i j ≤ 1
  warm : ∀ i j, 0 < temp i j
  coef : ∀ i j, κ ≤ k i j ∧ k i j ≤ 1
  split : ∀ i j, partitionSplit ic (k i j) (phi i j) (c i j) = some (cl i j, ca i j)

/-- **C134, 2D, phase-gradient form**: partitioned solute does not become negative if the energies and the compositions are interpolated
alike or the compositions linearly. -/
theorem c134_kks_2d_partial {it ic at_ : Char} (h : (it, ic) ∈ fitting) (hat : at_ = 'a' ∨ at_ = 'h') (R κ : ℝ) (l s : Arrhenius) (hR : 0 < R) (hl : 0 ≤ l.d0 ∧ 0 ≤ l.q0)
    (hs : 0 ≤ s.d0 ∧ 0 ≤ s.q0) (hκ : 0 < κ) (dx dy mob : ℝ) (hmob : 0 ≤ mob) (temp phi k cl ca c : ℝ → Field2)
    (cells : Finset (ℤ × ℤ)) (T : ℝ) (hP : ∀ t ∈ Icc 0 T, Partitioned2 ic κ (temp t) (phi t) (k t) (cl t) (ca t) (c t))
    (hgh : ∀ t ∈ Icc 0 T, Ghosts2 cells (c t))
    (hsol : ∀ t ∈ Icc 0 T, ∀ p ∈ cells, ∃ r, kksRate2 it at_ R l s dx dy mob (temp t) (phi t) (cl t) (ca t) (c t) p.1 p.2 = some r ∧
      HasDerivAt (fun s => c s p.1 p.2) r t)
    (h0 : ∀ p ∈ cells, 0 ≤ c 0 p.1 p.2) :
    ∀ t ∈ Icc 0 T, ∀ p ∈ cells, 0 ≤ c t p.1 p.2 := by
  choose! r hr hder using hsol
  set D := (l.d0 + s.d0) * (1 + 1 / κ) with hD
  have D0 : 0 ≤ D := mul_nonneg (by linarith [hl.1, hs.1]) (by positivity)
  have mx0 : 0 ≤ mob / (dx * dx) := div_nonneg hmob (mul_self_nonneg dx)
  have my0 : 0 ≤ mob / (dy * dy) := div_nonneg hmob (mul_self_nonneg dy)
  refine keep cells (fun t p => c t p.1 p.2) r T (mob / (dx * dx) * D + mob / (dy * dy) * D) 4 hder h0 fun t ht p hp => ?_
  obtain ⟨i, j⟩ := p
  have P := hP t ht
  have F := fun i j i' j' => kks_face h hat hR hl hs hκ (P.frac i j) (P.frac i' j') (t := (temp t i j, temp t i' j')) ⟨P.warm _ _, P.warm _ _⟩
    (P.coef i j) (P.coef i' j') (P.split i j) (P.split i' j')
  obtain ⟨d1, e1, x1, y1, hd1, he1, f1, x10, x1B, y10, y1B⟩ := F i j (i + 1) j
  obtain ⟨d2, e2, x2, y2, hd2, he2, f2, x20, x2B, y20, y2B⟩ := F (i - 1) j i j
  obtain ⟨d3, e3, x3, y3, hd3, he3, f3, x30, x3B, y30, y3B⟩ := F i j i (j + 1)
  obtain ⟨d4, e4, x4, y4, hd4, he4, f4, x40, x4B, y40, y4B⟩ := F i (j - 1) i j
  have G := hgh t ht (i, j) hp
  simp only [List.mem_cons, List.not_mem_nil, or_false, forall_eq_or_imp, forall_eq] at G
  obtain ⟨gE, gW, gN, gS⟩ := G
  have R' := hr t ht (i, j) hp
  simp only [kksRate2, kksFluxX, kksFluxY, X, Y, Prod.swap_prod_mk, add_sub_cancel_right, hd1, hd2, hd3, hd4, he1, he2, he3, he4,
    Option.bind_eq_bind, Option.bind_some, Option.some.injEq, concentrationFluxX, concentrationFluxY, f1, f2, f3, f4] at R'
  refine ⟨![mob / (dx * dx) * x1, mob / (dx * dx) * y2, mob / (dy * dy) * x3, mob / (dy * dy) * y4],
    ![mob / (dx * dx) * y1, mob / (dx * dx) * x2, mob / (dy * dy) * y3, mob / (dy * dy) * x4],
    ![c t (i + 1) j, c t (i - 1) j, c t i (j + 1), c t i (j - 1)], ?_, ?_⟩
  · rw [Fin.sum_univ_four, ← R']
    simp only [Matrix.cons_val_zero, Matrix.cons_val_one, Matrix.cons_val]
    ring
  · have bx := mul_nonneg mx0 D0
    have by' := mul_nonneg my0 D0
    intro m
    match m with
    | 0 =>
      refine ⟨mul_nonneg mx0 x10, ?_, mul_nonneg mx0 y10, gE⟩
      show mob / (dx * dx) * x1 ≤ _; linarith [mul_le_mul_of_nonneg_left x1B mx0]
    | 1 =>
      refine ⟨mul_nonneg mx0 y20, ?_, mul_nonneg mx0 x20, gW⟩
      show mob / (dx * dx) * y2 ≤ _; linarith [mul_le_mul_of_nonneg_left y2B mx0]
    | 2 =>
      refine ⟨mul_nonneg my0 x30, ?_, mul_nonneg my0 y30, gN⟩
      show mob / (dy * dy) * x3 ≤ _; linarith [mul_le_mul_of_nonneg_left x3B my0]
    | 3 =>
      refine ⟨mul_nonneg my0 y40, ?_, mul_nonneg my0 x40, gS⟩
      show mob / (dy * dy) * y4 ≤ _; linarith [mul_le_mul_of_nonneg_left y4B my0]

/-- The same in 3D. -/
structure Partitioned3 (ic : Char) (κ : ℝ) (temp phi k cl ca c : QuatFlow3.Cell → ℝ) : Prop where
  frac : ∀ p, 0 ≤ phi p ∧ phi p ≤ 1
  warm : ∀ p, 0 < temp p
  coef : ∀ p, κ ≤ k p ∧ k p ≤ 1
  split : ∀ p, partitionSplit ic (k p) (phi p) (c p) = some (cl p, ca p)

/-- **C134, 3D, phase-gradient form.** -/
theorem c134_kks_3d_partial {it ic at_ : Char} (h : (it, ic) ∈ fitting) (hat : at_ = 'a' ∨ at_ = 'h') (R κ : ℝ) (l s : Arrhenius) (hR : 0 < R) (hl : 0 ≤ l.d0 ∧ 0 ≤ l.q0)
    (hs : 0 ≤ s.d0 ∧ 0 ≤ s.q0) (hκ : 0 < κ) (dx : Fin 3 → ℝ) (mob : ℝ) (hmob : 0 ≤ mob) (temp phi k cl ca c : ℝ → QuatFlow3.Cell → ℝ)
    (cells : Finset (ℤ × ℤ × ℤ)) (T : ℝ) (hP : ∀ t ∈ Icc 0 T, Partitioned3 ic κ (temp t) (phi t) (k t) (cl t) (ca t) (c t))
    (hgh : ∀ t ∈ Icc 0 T, Ghosts3 cells (fun i j k => c t (i, j, k)))
    (hsol : ∀ t ∈ Icc 0 T, ∀ p ∈ cells, ∃ r, kksRate3 it at_ R l s dx mob (temp t) (phi t) (cl t) (ca t) (c t) p = some r ∧
      HasDerivAt (fun s => c s p) r t)
    (h0 : ∀ p ∈ cells, 0 ≤ c 0 p) :
    ∀ t ∈ Icc 0 T, ∀ p ∈ cells, 0 ≤ c t p := by
  choose! r hr hder using hsol
  set D := (l.d0 + s.d0) * (1 + 1 / κ) with hD
  have D0 : 0 ≤ D := mul_nonneg (by linarith [hl.1, hs.1]) (by positivity)
  have m0 : ∀ d, 0 ≤ mob / (dx d * dx d) := fun d => div_nonneg hmob (mul_self_nonneg _)
  refine keep cells (fun t p => c t p) r T (mob / (dx 0 * dx 0) * D + mob / (dx 1 * dx 1) * D + mob / (dx 2 * dx 2) * D) 6 hder h0
    fun t ht p hp => ?_
  obtain ⟨i, j, k'⟩ := p
  have P := hP t ht
  have F := fun p q => kks_face h hat hR hl hs hκ (P.frac p) (P.frac q) (t := (temp t p, temp t q)) ⟨P.warm _, P.warm _⟩
    (P.coef p) (P.coef q) (P.split p) (P.split q)
  obtain ⟨d1, e1, x1, y1, hd1, he1, f1, x10, x1B, y10, y1B⟩ := F (i, j, k') (i + 1, j, k')
  obtain ⟨d2, e2, x2, y2, hd2, he2, f2, x20, x2B, y20, y2B⟩ := F (i - 1, j, k') (i, j, k')
  obtain ⟨d3, e3, x3, y3, hd3, he3, f3, x30, x3B, y30, y3B⟩ := F (i, j, k') (i, j + 1, k')
  obtain ⟨d4, e4, x4, y4, hd4, he4, f4, x40, x4B, y40, y4B⟩ := F (i, j - 1, k') (i, j, k')
  obtain ⟨d5, e5, x5, y5, hd5, he5, f5, x50, x5B, y50, y5B⟩ := F (i, j, k') (i, j, k' + 1)
  obtain ⟨d6, e6, x6, y6, hd6, he6, f6, x60, x6B, y60, y6B⟩ := F (i, j, k' - 1) (i, j, k')
  have G := hgh t ht (i, j, k') hp
  simp only [List.mem_cons, List.not_mem_nil, or_false, forall_eq_or_imp, forall_eq, Prod.mk.eta] at G
  obtain ⟨gE, gW, gN, gS, gT, gB⟩ := G
  have R' := hr t ht (i, j, k') hp
  simp only [kksRate3, AlloyFlow3.kks, AlloyFlow3.sides, QuatFlow3.mv, Prod.swap_prod_mk, ← sub_eq_add_neg, add_sub_cancel_right, hd1, hd2, hd3, hd4,
    hd5, hd6, he1, he2, he3, he4, he5, he6, Option.bind_eq_bind, Option.bind_some, Option.map_some, Option.some.injEq,
    AlloyFlow3.concentrationFlux, f1, f2, f3, f4, f5, f6] at R'
  refine ⟨![mob / (dx 0 * dx 0) * x1, mob / (dx 0 * dx 0) * y2, mob / (dx 1 * dx 1) * x3, mob / (dx 1 * dx 1) * y4, mob / (dx 2 * dx 2) * x5,
      mob / (dx 2 * dx 2) * y6],
    ![mob / (dx 0 * dx 0) * y1, mob / (dx 0 * dx 0) * x2, mob / (dx 1 * dx 1) * y3, mob / (dx 1 * dx 1) * x4, mob / (dx 2 * dx 2) * y5,
      mob / (dx 2 * dx 2) * x6],
    ![c t (i + 1, j, k'), c t (i - 1, j, k'), c t (i, j + 1, k'), c t (i, j - 1, k'), c t (i, j, k' + 1), c t (i, j, k' - 1)], ?_, ?_⟩
  · rw [Fin.sum_univ_six, ← R']
    simp only [Matrix.cons_val_zero, Matrix.cons_val_one, Matrix.cons_val]
    ring
  · have b0 := mul_nonneg (m0 0) D0
    have b1 := mul_nonneg (m0 1) D0
    have b2 := mul_nonneg (m0 2) D0
    intro m
    match m with
    | 0 =>
      refine ⟨mul_nonneg (m0 0) x10, ?_, mul_nonneg (m0 0) y10, gE⟩
      show mob / (dx 0 * dx 0) * x1 ≤ _; linarith [mul_le_mul_of_nonneg_left x1B (m0 0)]
    | 1 =>
      refine ⟨mul_nonneg (m0 0) y20, ?_, mul_nonneg (m0 0) x20, gW⟩
      show mob / (dx 0 * dx 0) * y2 ≤ _; linarith [mul_le_mul_of_nonneg_left y2B (m0 0)]
    | 2 =>
      refine ⟨mul_nonneg (m0 1) x30, ?_, mul_nonneg (m0 1) y30, gN⟩
      show mob / (dx 1 * dx 1) * x3 ≤ _; linarith [mul_le_mul_of_nonneg_left x3B (m0 1)]
    | 3 =>
      refine ⟨mul_nonneg (m0 1) y40, ?_, mul_nonneg (m0 1) x40, gS⟩
      show mob / (dx 1 * dx 1) * y4 ≤ _; linarith [mul_le_mul_of_nonneg_left y4B (m0 1)]
    | 4 =>
      refine ⟨mul_nonneg (m0 2) x50, ?_, mul_nonneg (m0 2) y50, gT⟩
      show mob / (dx 2 * dx 2) * x5 ≤ _; linarith [mul_le_mul_of_nonneg_left x5B (m0 2)]
    | 5 =>
      refine ⟨mul_nonneg (m0 2) y60, ?_, mul_nonneg (m0 2) x60, gB⟩
      show mob / (dx 2 * dx 2) * y6 ≤ _; linarith [mul_le_mul_of_nonneg_left y6B (m0 2)]

/-- The split is the one of the claim: the lever rule and a constant ratio. -/
theorem c134_split (ic : Char) (k phi c cl ca w : ℝ) (hw : interpFunc ic phi = some w) (hne : 1 - w + k * w ≠ 0) :
    partitionSplit ic k phi c = some (cl, ca) ↔ (1 - w) * cl + w * ca = c ∧ ca = k * cl := by
  simp only [partitionSplit, hw, Option.map_some, Option.some.injEq, Prod.mk.injEq, mul_one_div]
  constructor
  · rintro ⟨rfl, rfl⟩
    constructor
    · rw [mul_div_assoc', mul_div_assoc', ← add_div, div_eq_iff hne]; ring
    · ring
  · rintro ⟨h, rfl⟩
    rw [← h, div_eq_iff hne, div_eq_iff hne]
    constructor <;> ring

/-! ## Where the claim fails -/

/-- Solute in one cell only. -/
noncomputable def only (a b : ℤ) (v : ℝ) : Field2 := fun i j => if i = a ∧ j = b then v else 0

theorem only_nonneg {a b : ℤ} {v : ℝ} (hv : 0 ≤ v) (i j : ℤ) : 0 ≤ only a b v i j := by
  unfold only; split_ifs <;> simp [hv]

theorem sum1 (f : ℕ → ℝ) : ∑ k ∈ Finset.Icc 1 1, f k = f 1 := by simp

theorem slot1 : slot 1 1 1 = 1 := by simp [slot]

/-- What a rate says about the solution. -/
theorem falls {c : ℝ → ℝ} {r : ℝ} (hs : HasDerivAt c r 0) (h0 : c 0 = 0) (hr : r < 0) : ∃ τ > 0, ∀ t ∈ Ioo 0 τ, c t < 0 :=
  eventually_neg hs h0 hr

/-- **C134 fails** for the fourth-order stencil: away from the boundary of the domain the solute two cells away is subtracted. -/
theorem c134_violation_order4 (lo0 hi0 lo1 hi1 : ℤ) (xlo xhi ylo yhi : Bool) (dx dy mob v : ℝ) (hdx : 0 < dx) (hmob : 0 < mob) (hv : 0 < v)
    (dl0 dl1 da0 da1 : ℕ → Field2) (c : ℝ → ℕ → Field2) (i j : ℤ)
    (hin : ¬((xlo = true ∧ i + 1 = lo0) ∨ (xhi = true ∧ i + 1 = hi0 + 1))) (hK : 0 < dl0 1 (i + 1) j + da0 1 (i + 1) j)
    (h0 : c 0 1 = only (i + 2) j v)
    (hsol : HasDerivAt (fun s => c s 1 i j)
      (rate2 (.order4 lo0 hi0 lo1 hi1 xlo xhi ylo yhi) none .fixed dx dy mob 1 dl0 dl1 da0 da1 (c 0) (c 0) (c 0) 1 i j) 0) :
    ∃ τ > 0, ∀ t ∈ Ioo 0 τ, c t 1 i j < 0 := by
  refine falls hsol (by simp [h0, only]) ?_
  have e1 : fluxX (.order4 lo0 hi0 lo1 hi1 xlo xhi ylo yhi) none dx dy 1 dl0 da0 (c 0) (c 0) 1 (i + 1) j
      = -((dl0 1 (i + 1) j + da0 1 (i + 1) j) * v / (12 * dx)) := by
    simp only [fluxX, addX, addFlux4X, sum1, slot1, if_neg hin, h0]
    have a1 : only (i + 2) j v (i + 1) j = 0 := by simp [only]
    have a2 : only (i + 2) j v (i + 1 - 1) j = 0 := by simp [only]
    have a3 : only (i + 2) j v (i + 1 + 1) j = v := by rw [only, if_pos (by constructor <;> ring)]
    have a4 : only (i + 2) j v (i + 1 - 2) j = 0 := by rw [only, if_neg (by omega)]
    rw [a1, a2, a3, a4]
    field_simp
    ring
  have e2 : fluxX (.order4 lo0 hi0 lo1 hi1 xlo xhi ylo yhi) none dx dy 1 dl0 da0 (c 0) (c 0) 1 i j = 0 := by
    have a1 : only (i + 2) j v i j = 0 := by simp [only]
    have a2 : only (i + 2) j v (i - 1) j = 0 := by rw [only, if_neg (by omega)]
    have a3 : only (i + 2) j v (i + 1) j = 0 := by simp [only]
    have a4 : only (i + 2) j v (i - 2) j = 0 := by rw [only, if_neg (by omega)]
    simp [fluxX, addX, addFlux4X, slot1, h0, a1, a2, a3, a4]
  have e3 : ∀ b, fluxY (.order4 lo0 hi0 lo1 hi1 xlo xhi ylo yhi) none dx dy 1 dl1 da1 (c 0) (c 0) 1 i b = 0 := by
    intro b
    have a1 : ∀ b, only (i + 2) j v i b = 0 := fun b => by simp [only]
    simp [fluxY, addY, addFlux4Y, slot1, h0, a1]
  simp only [rate2, rhs2, e1, e2, e3, frameTerm]
  have : 0 < mob * (1 / dx * ((dl0 1 (i + 1) j + da0 1 (i + 1) j) * v / (12 * dx))) := by positivity
  nlinarith

/-- **C134 fails** for the isotropic stencil, if diffusion across the diagonal neighbours is much faster: the solute above the cell is
moved sideways by the part of the x flux that is averaged over rows. -/
theorem c134_violation_isotropic (dx dy mob v : ℝ) (hdx : 0 < dx) (hdy : 0 < dy) (hmob : 0 < mob) (hv : 0 < v)
    (dl0 dl1 da0 da1 : ℕ → Field2) (c : ℝ → ℕ → Field2) (i j : ℤ)
    (hK : 10 * (dl1 1 i (j + 1) + da1 1 i (j + 1)) / (dy * dy) <
      (dl0 1 (i + 1) (j + 1) + da0 1 (i + 1) (j + 1) + (dl0 1 i (j + 1) + da0 1 i (j + 1))) / (dx * dx))
    (h0 : c 0 1 = only i (j + 1) v)
    (hsol : HasDerivAt (fun s => c s 1 i j) (rate2 .isotropic none .fixed dx dy mob 1 dl0 dl1 da0 da1 (c 0) (c 0) (c 0) 1 i j) 0) :
    ∃ τ > 0, ∀ t ∈ Ioo 0 τ, c t 1 i j < 0 := by
  refine falls hsol (by simp [h0, only]) ?_
  have z : ∀ a b, ¬(a = i ∧ b = j + 1) → only i (j + 1) v a b = 0 := fun a b h => by rw [only, if_neg h]
  have o : only i (j + 1) v i (j + 1) = v := by simp [only]
  have z1 := z (i + 1) (j + 1) (by omega)
  have z2 := z (i + 1) j (by omega)
  have z3 := z i j (by omega)
  have z4 := z (i + 1) (j - 1) (by omega)
  have z5 := z i (j - 1) (by omega)
  have z6 := z (i - 1) (j + 1) (by omega)
  have z7 := z (i - 1) j (by omega)
  have z8 := z (i - 1) (j - 1) (by omega)
  have key : rate2 .isotropic none .fixed dx dy mob 1 dl0 dl1 da0 da1 (c 0) (c 0) (c 0) 1 i j
      = mob * v / 12 * (10 * (dl1 1 i (j + 1) + da1 1 i (j + 1)) / (dy * dy)
        - (dl0 1 (i + 1) (j + 1) + da0 1 (i + 1) (j + 1) + (dl0 1 i (j + 1) + da0 1 i (j + 1))) / (dx * dx)) := by
    simp only [rate2, rhs2, fluxX, fluxY, addX, addY, addFluxIsoX, addFluxIsoY, sum1, slot1, h0, frameTerm, add_sub_cancel_right,
      o, z1, z2, z3, z4, z5, z6, z7, z8]
    field_simp
    ring
  rw [key]
  have : 0 < mob * v / 12 := by positivity
  nlinarith

/-- **C134 fails** with the anti-trapping current: a cell without solute next to a melting (`dphidt < 0`) interface loses solute that it
does not have, if the current exceeds the diffusion. -/
theorem c134_violation_antitrap (dx dy mob v : ℝ) (hdx : 0 < dx) (hmob : 0 < mob) (hv : 0 < v) (tr : Trap)
    (dl0 dl1 da0 da1 : ℕ → Field2) (c cl ca : ℝ → ℕ → Field2) (aL aA : Field2) (i j : ℤ)
    (hg : (gradX dx dy tr.phase (i + 1) j).2 = 0) (hg1 : 1e-8 < (gradX dx dy tr.phase (i + 1) j).1)
    (hK : dl0 1 (i + 1) j * aL (i + 1) j + da0 1 (i + 1) j * aA (i + 1) j
      < -(tr.alpha * (aL (i + 1) j - aA (i + 1) j) * avgX tr.dphidt (i + 1) j * dx / 2))
    (h0 : c 0 1 = only (i + 1) j v) (hl : ∀ a b, cl 0 1 a b = aL a b * c 0 1 a b) (ha : ∀ a b, ca 0 1 a b = aA a b * c 0 1 a b)
    (hsol : HasDerivAt (fun s => c s 1 i j) (rate2 .regular (some tr) .fixed dx dy mob 1 dl0 dl1 da0 da1 (c 0) (cl 0) (ca 0) 1 i j) 0) :
    ∃ τ > 0, ∀ t ∈ Ioo 0 τ, c t 1 i j < 0 := by
  refine falls hsol (by simp [h0, only]) ?_
  have z : ∀ a b, ¬(a = i + 1 ∧ b = j) → cl 0 1 a b = 0 ∧ ca 0 1 a b = 0 := fun a b h => by
    constructor
    · rw [hl, h0, only, if_neg h, mul_zero]
    · rw [ha, h0, only, if_neg h, mul_zero]
  have o : cl 0 1 (i + 1) j = aL (i + 1) j * v ∧ ca 0 1 (i + 1) j = aA (i + 1) j * v := by
    constructor
    · rw [hl, h0, only, if_pos ⟨rfl, rfl⟩]
    · rw [ha, h0, only, if_pos ⟨rfl, rfl⟩]
  have z1 := z i j (by omega)
  have z2 := z (i - 1) j (by omega)
  have z3 := z i (j + 1) (by omega)
  have z4 := z i (j - 1) (by omega)
  have at0 : ∀ g n d, antitrap2 tr.alpha g n 0 0 d = 0 := fun g n d => by simp [antitrap2]
  have e1 : fluxX .regular (some tr) dx dy 1 dl0 da0 (cl 0) (ca 0) 1 (i + 1) j
      = 1 / dx * ((dl0 1 (i + 1) j * aL (i + 1) j + da0 1 (i + 1) j * aA (i + 1) j) * v)
        + tr.alpha * (aL (i + 1) j - aA (i + 1) j) * v / 2 * avgX tr.dphidt (i + 1) j := by
    have hgp : 0 < (gradX dx dy tr.phase (i + 1) j).1 := lt_trans (by norm_num) hg1
    have hs : Real.sqrt ((gradX dx dy tr.phase (i + 1) j).1 * (gradX dx dy tr.phase (i + 1) j).1) = (gradX dx dy tr.phase (i + 1) j).1 :=
      Real.sqrt_mul_self hgp.le
    have ht : |(gradX dx dy tr.phase (i + 1) j).1 * (gradX dx dy tr.phase (i + 1) j).1| > tol2 := by
      rw [abs_of_pos (mul_pos hgp hgp), tol2]
      exact mul_lt_mul'' hg1 hg1 (by norm_num) (by norm_num)
    simp only [fluxX, addAntitrap2X, addX, addFluxX, sum1, slot1, antitrap2, hg, mul_zero, add_zero, hs, if_pos ht, avgX, add_sub_cancel_right,
      o.1, o.2, z1.1, z1.2, div_self hgp.ne']
    ring
  have e2 : fluxX .regular (some tr) dx dy 1 dl0 da0 (cl 0) (ca 0) 1 i j = 0 := by
    simp [fluxX, addAntitrap2X, addX, addFluxX, avgX, z1.1, z1.2, z2.1, z2.2, at0]
  have e3 : fluxY .regular (some tr) dx dy 1 dl1 da1 (cl 0) (ca 0) 1 i (j + 1) = 0 := by
    simp [fluxY, addAntitrap2Y, addY, addFluxY, avgY, z1.1, z1.2, z3.1, z3.2, at0]
  have e4 : fluxY .regular (some tr) dx dy 1 dl1 da1 (cl 0) (ca 0) 1 i j = 0 := by
    simp [fluxY, addAntitrap2Y, addY, addFluxY, avgY, z1.1, z1.2, z4.1, z4.2, at0]
  have key : rate2 .regular (some tr) .fixed dx dy mob 1 dl0 dl1 da0 da1 (c 0) (cl 0) (ca 0) 1 i j
      = mob * v / (dx * dx) * (dl0 1 (i + 1) j * aL (i + 1) j + da0 1 (i + 1) j * aA (i + 1) j
        + tr.alpha * (aL (i + 1) j - aA (i + 1) j) * avgX tr.dphidt (i + 1) j * dx / 2) := by
    simp only [rate2, rhs2, e1, e2, e3, e4, frameTerm]
    field_simp
    ring
  rw [key]
  have : 0 < mob * v / (dx * dx) := by positivity
  nlinarith

/-- **C134 fails** in the same way across a y face. -/
theorem c134_violation_antitrap_y (dx dy mob v : ℝ) (hdy : 0 < dy) (hmob : 0 < mob) (hv : 0 < v) (tr : Trap)
    (dl0 dl1 da0 da1 : ℕ → Field2) (c cl ca : ℝ → ℕ → Field2) (aL aA : Field2) (i j : ℤ)
    (hg : (gradY dx dy tr.phase i (j + 1)).1 = 0) (hg1 : 1e-8 < (gradY dx dy tr.phase i (j + 1)).2)
    (hK : dl1 1 i (j + 1) * aL i (j + 1) + da1 1 i (j + 1) * aA i (j + 1)
      < -(tr.alpha * (aL i (j + 1) - aA i (j + 1)) * avgY tr.dphidt i (j + 1) * dy / 2))
    (h0 : c 0 1 = only i (j + 1) v) (hl : ∀ a b, cl 0 1 a b = aL a b * c 0 1 a b) (ha : ∀ a b, ca 0 1 a b = aA a b * c 0 1 a b)
    (hsol : HasDerivAt (fun s => c s 1 i j) (rate2 .regular (some tr) .fixed dx dy mob 1 dl0 dl1 da0 da1 (c 0) (cl 0) (ca 0) 1 i j) 0) :
    ∃ τ > 0, ∀ t ∈ Ioo 0 τ, c t 1 i j < 0 := by
  refine falls hsol (by simp [h0, only]) ?_
  have z : ∀ a b, ¬(a = i ∧ b = j + 1) → cl 0 1 a b = 0 ∧ ca 0 1 a b = 0 := fun a b h => by
    constructor
    · rw [hl, h0, only, if_neg h, mul_zero]
    · rw [ha, h0, only, if_neg h, mul_zero]
  have o : cl 0 1 i (j + 1) = aL i (j + 1) * v ∧ ca 0 1 i (j + 1) = aA i (j + 1) * v := by
    constructor
    · rw [hl, h0, only, if_pos ⟨rfl, rfl⟩]
    · rw [ha, h0, only, if_pos ⟨rfl, rfl⟩]
  have z1 := z i j (by omega)
  have z2 := z i (j - 1) (by omega)
  have z3 := z (i + 1) j (by omega)
  have z4 := z (i - 1) j (by omega)
  have at0 : ∀ g n d, antitrap2 tr.alpha g n 0 0 d = 0 := fun g n d => by simp [antitrap2]
  have e1 : fluxY .regular (some tr) dx dy 1 dl1 da1 (cl 0) (ca 0) 1 i (j + 1)
      = 1 / dy * ((dl1 1 i (j + 1) * aL i (j + 1) + da1 1 i (j + 1) * aA i (j + 1)) * v)
        + tr.alpha * (aL i (j + 1) - aA i (j + 1)) * v / 2 * avgY tr.dphidt i (j + 1) := by
    have hgp : 0 < (gradY dx dy tr.phase i (j + 1)).2 := lt_trans (by norm_num) hg1
    have hs : Real.sqrt ((gradY dx dy tr.phase i (j + 1)).2 * (gradY dx dy tr.phase i (j + 1)).2) = (gradY dx dy tr.phase i (j + 1)).2 :=
      Real.sqrt_mul_self hgp.le
    have ht : |(gradY dx dy tr.phase i (j + 1)).2 * (gradY dx dy tr.phase i (j + 1)).2| > tol2 := by
      rw [abs_of_pos (mul_pos hgp hgp), tol2]
      exact mul_lt_mul'' hg1 hg1 (by norm_num) (by norm_num)
    simp only [fluxY, addAntitrap2Y, addY, addFluxY, sum1, slot1, antitrap2, hg, mul_zero, zero_add, hs, if_pos ht, avgY, add_sub_cancel_right,
      o.1, o.2, z1.1, z1.2, div_self hgp.ne']
    ring
  have e2 : fluxY .regular (some tr) dx dy 1 dl1 da1 (cl 0) (ca 0) 1 i j = 0 := by
    simp [fluxY, addAntitrap2Y, addY, addFluxY, avgY, z1.1, z1.2, z2.1, z2.2, at0]
  have e3 : fluxX .regular (some tr) dx dy 1 dl0 da0 (cl 0) (ca 0) 1 (i + 1) j = 0 := by
    simp [fluxX, addAntitrap2X, addX, addFluxX, avgX, z1.1, z1.2, z3.1, z3.2, at0]
  have e4 : fluxX .regular (some tr) dx dy 1 dl0 da0 (cl 0) (ca 0) 1 i j = 0 := by
    simp [fluxX, addAntitrap2X, addX, addFluxX, avgX, z1.1, z1.2, z4.1, z4.2, at0]
  have key : rate2 .regular (some tr) .fixed dx dy mob 1 dl0 dl1 da0 da1 (c 0) (cl 0) (ca 0) 1 i j
      = mob * v / (dy * dy) * (dl1 1 i (j + 1) * aL i (j + 1) + da1 1 i (j + 1) * aA i (j + 1)
        + tr.alpha * (aL i (j + 1) - aA i (j + 1)) * avgY tr.dphidt i (j + 1) * dy / 2) := by
    simp only [rate2, rhs2, e1, e2, e3, e4, frameTerm]
    field_simp
    ring
  rw [key]
  have : 0 < mob * v / (dy * dy) := by positivity
  nlinarith

/-- **C134 fails** with cross diffusion: a heap of the second species drives the first one out of a cell that has none. -/
theorem c134_violation_cross (dx dy mob v : ℝ) (hdx : 0 < dx) (hdy : 0 < dy) (hmob : 0 < mob) (hv : 0 < v) (d0 d1 zero : ℕ → Field2)
    (hz : ∀ n i j, zero n i j = 0) (c : ℝ → ℕ → Field2) (i j : ℤ) (hK : 0 < d0 3 (i + 1) j ∧ 0 < d0 3 i j ∧ 0 < d1 3 i (j + 1) ∧ 0 < d1 3 i j)
    (h1 : ∀ a b, c 0 1 a b = 0) (h2 : c 0 2 = only i j v)
    (hsol : HasDerivAt (fun s => c s 1 i j) (rate2 .regular none .fixed dx dy mob 2 d0 d1 zero zero (c 0) (c 0) (c 0) 1 i j) 0) :
    ∃ τ > 0, ∀ t ∈ Ioo 0 τ, c t 1 i j < 0 := by
  refine falls hsol (h1 i j) ?_
  have s2 : ∀ f : ℕ → ℝ, ∑ k ∈ Finset.Icc 1 2, f k = f 1 + f 2 := fun f => by
    rw [show Finset.Icc 1 2 = ({1, 2} : Finset ℕ) by rfl, Finset.sum_pair (by norm_num)]
  have l1 : slot 2 1 1 = 1 := by rfl
  have l2 : slot 2 1 2 = 3 := by rfl
  have z1 : only i j v (i + 1) j = 0 := by simp [only]
  have z2 : only i j v (i - 1) j = 0 := by simp [only]
  have z3 : only i j v i (j + 1) = 0 := by simp [only]
  have z4 : only i j v i (j - 1) = 0 := by simp [only]
  have o : only i j v i j = v := by simp [only]
  have key : rate2 .regular none .fixed dx dy mob 2 d0 d1 zero zero (c 0) (c 0) (c 0) 1 i j
      = -(mob * v * ((d0 3 (i + 1) j + d0 3 i j) / (dx * dx) + (d1 3 i (j + 1) + d1 3 i j) / (dy * dy))) := by
    simp only [rate2, rhs2, fluxX, fluxY, addX, addY, addFluxX, addFluxY, s2, l1, l2, hz, h1, h2, frameTerm, add_sub_cancel_right, z1, z2, z3, z4, o]
    field_simp
    ring
  rw [key]
  have : 0 < mob * v * ((d0 3 (i + 1) j + d0 3 i j) / (dx * dx) + (d1 3 i (j + 1) + d1 3 i j) / (dy * dy)) := by
    obtain ⟨a, b, d, e⟩ := hK
    positivity
  linarith

/-- **C134 fails** in a frame faster than diffusion over a cell: the bound on the speed in `c134_nonneg_2d_partial` is the exact one. -/
theorem c134_violation_frame (vel dx dy mob v : ℝ) (hdx : 0 < dx) (hmob : 0 < mob) (hv : 0 < v) (dl0 dl1 da0 da1 : ℕ → Field2)
    (c cl ca : ℝ → ℕ → Field2) (aL aA : Field2) (i j : ℤ)
    (hfast : vel * dx < -(2 * (mob * (dl0 1 (i + 1) j * aL (i + 1) j + da0 1 (i + 1) j * aA (i + 1) j))))
    (h0 : c 0 1 = only (i + 1) j v) (hl : ∀ a b, cl 0 1 a b = aL a b * c 0 1 a b) (ha : ∀ a b, ca 0 1 a b = aA a b * c 0 1 a b)
    (hsol : HasDerivAt (fun s => c s 1 i j) (rate2 .regular none (.centred vel) dx dy mob 1 dl0 dl1 da0 da1 (c 0) (cl 0) (ca 0) 1 i j) 0) :
    ∃ τ > 0, ∀ t ∈ Ioo 0 τ, c t 1 i j < 0 := by
  refine falls hsol (by simp [h0, only]) ?_
  have z : ∀ a b, ¬(a = i + 1 ∧ b = j) → only (i + 1) j v a b = 0 := fun a b h => by rw [only, if_neg h]
  have z1 := z i j (by omega)
  have z2 := z (i - 1) j (by omega)
  have z3 := z i (j + 1) (by omega)
  have z4 := z i (j - 1) (by omega)
  have o : only (i + 1) j v (i + 1) j = v := by simp [only]
  have key : rate2 .regular none (.centred vel) dx dy mob 1 dl0 dl1 da0 da1 (c 0) (cl 0) (ca 0) 1 i j
      = v / (2 * (dx * dx)) * (vel * dx + 2 * (mob * (dl0 1 (i + 1) j * aL (i + 1) j + da0 1 (i + 1) j * aA (i + 1) j))) := by
    simp only [rate2, rhs2, fluxX, fluxY, addX, addY, addFluxX, addFluxY, sum1, slot1, hl, ha, h0, frameTerm, PhaseRHS.convect, add_sub_cancel_right,
      z1, z2, z3, z4, o]
    field_simp
    ring
  rw [key]
  have : 0 < v / (2 * (dx * dx)) := by positivity
  nlinarith

/-- **C134 fails** for the upper bound one: where the liquid composition of the cells around is larger than that of the cell (more solid
there, rejected solute in the liquid), a uniform composition one grows beyond one. -/
theorem c134_violation_upper (dx dy mob D : ℝ) (hdx : 0 < dx) (hdy : 0 < dy) (hmob : 0 < mob) (hD : 0 < D) (zero : ℕ → Field2)
    (hz : ∀ n i j, zero n i j = 0) (c cl ca : ℝ → ℕ → Field2) (aL : Field2) (i j : ℤ) (h0 : ∀ a b, c 0 1 a b = 1)
    (hl : ∀ a b, cl 0 1 a b = aL a b * c 0 1 a b)
    (hE : aL i j < aL (i + 1) j) (hW : aL i j ≤ aL (i - 1) j) (hN : aL i j ≤ aL i (j + 1)) (hS : aL i j ≤ aL i (j - 1))
    (hsol : HasDerivAt (fun s => c s 1 i j)
      (rate2 .regular none .fixed dx dy mob 1 (fun _ _ _ => D) (fun _ _ _ => D) zero zero (c 0) (cl 0) (ca 0) 1 i j) 0) :
    ∃ τ > 0, ∀ t ∈ Ioo 0 τ, 1 < c t 1 i j := by
  have key : rate2 .regular none .fixed dx dy mob 1 (fun _ _ _ => D) (fun _ _ _ => D) zero zero (c 0) (cl 0) (ca 0) 1 i j
      = mob * D * ((aL (i + 1) j - aL i j + (aL (i - 1) j - aL i j)) / (dx * dx) + (aL i (j + 1) - aL i j + (aL i (j - 1) - aL i j)) / (dy * dy)) := by
    simp only [rate2, rhs2, fluxX, fluxY, addX, addY, addFluxX, addFluxY, sum1, hl, h0, hz, frameTerm, add_sub_cancel_right]
    field_simp
    ring
  rw [key] at hsol
  have hp : 0 < mob * D * ((aL (i + 1) j - aL i j + (aL (i - 1) j - aL i j)) / (dx * dx) + (aL i (j + 1) - aL i j + (aL i (j - 1) - aL i j)) / (dy * dy)) := by
    have h1 : 0 < (aL (i + 1) j - aL i j + (aL (i - 1) j - aL i j)) / (dx * dx) := div_pos (by linarith) (by positivity)
    have h2 : 0 ≤ (aL i (j + 1) - aL i j + (aL i (j - 1) - aL i j)) / (dy * dy) := div_nonneg (by linarith) (by positivity)
    positivity
  obtain ⟨τ, hτ, hn⟩ := eventually_neg (hsol.const_sub 1) (by simp [h0]) (by linarith)
  exact ⟨τ, hτ, fun t ht => by linarith [hn t ht]⟩

/-- **C134 fails** in the phase-gradient form if the energies are interpolated linearly and the compositions are not: nearly solid cells
hold much solute in their liquid part. -/
theorem c134_violation_kks_linear {ic : Char} (R : ℝ) (l s : Arrhenius) (hl : 0 < l.d0) (hs : 0 < s.d0) (dx dy mob v w k : ℝ) (hdx : 0 < dx)
    (hmob : 0 < mob) (hv : 0 < v) (temp phi cl ca : Field2) (c : ℝ → Field2) (i j : ℤ) (hu : ∀ a b, 0 ≤ phi a b ∧ phi a b ≤ 1)
    (h0 : c 0 = only (i + 1) j v) (hempty : ∀ a b, ¬(a = i + 1 ∧ b = j) → cl a b = 0 ∧ ca a b = 0)
    (hw : interpFunc ic (phi (i + 1) j) = some w) (hsp : partitionSplit ic k (phi (i + 1) j) v = some (cl (i + 1) j, ca (i + 1) j))
    (hK : 2 < (1 - k) / (1 - w + k * w) * (phi i j - phi (i + 1) j)) :
    ∃ r, kksRate2 'l' 'a' R l s dx dy mob temp phi cl ca (c 0) i j = some r ∧
      (HasDerivAt (fun s => c s i j) r 0 → ∃ τ > 0, ∀ t ∈ Ioo 0 τ, c t i j < 0) := by
  have z : ∀ a b, ¬(a = i + 1 ∧ b = j) → only (i + 1) j v a b = 0 := fun a b h => by rw [only, if_neg h]
  have z1 := z i j (by omega)
  have z2 := z (i - 1) j (by omega)
  have z3 := z i (j + 1) (by omega)
  have z4 := z i (j - 1) (by omega)
  have o : only (i + 1) j v (i + 1) j = v := by simp [only]
  have y1 := hempty i j (by omega)
  have y2 := hempty (i - 1) j (by omega)
  have y3 := hempty i (j + 1) (by omega)
  have y4 := hempty i (j - 1) (by omega)
  have lp : 'l' ∈ Functions.Props.proper := by simp [Functions.Props.proper]
  have F := fun a b a' b' t => c60_between 'l' 'a' lp (Or.inl rfl) R l s hl.le hs.le (phi a b, phi a' b') t ⟨hu a b, hu a' b'⟩
  have pos : ∀ (m : Arrhenius) t, 0 < m.d0 → 0 < rate R m t := fun m t hm => by unfold rate; positivity
  obtain ⟨p1, q1, e1, -, -, m1, -⟩ := F i j (i + 1) j (temp i j, temp (i + 1) j)
  obtain ⟨p2, q2, e2, -, -, -, -⟩ := F (i - 1) j i j (temp (i - 1) j, temp i j)
  obtain ⟨p3, q3, e3, -, -, -, -⟩ := F i j i (j + 1) (temp i j, temp i (j + 1))
  obtain ⟨p4, q4, e4, -, -, -, -⟩ := F i (j - 1) i j (temp i (j - 1), temp i j)
  have D0 : 0 < p1 + q1 := lt_of_lt_of_le (lt_min (pos l _ hl) (pos s _ hs)) m1
  have sd := split_diff hw hsp
  simp only at sd
  set β := (1 - k) / (1 - w + k * w) with hβ
  refine ⟨mob * v * (p1 + q1) / (2 * (dx * dx)) * (2 - β * (phi i j - phi (i + 1) j)), ?_, fun hd => falls hd (by rw [h0, z1]) ?_⟩
  · have e0 : ca (i + 1) j = cl (i + 1) j - β * v := by linarith
    simp only [kksRate2, kksFluxX, kksFluxY, kksDiff, kksCoef, avgP, Coupling.Props.avg_a, Coupling.Props.deriv_l, X, Y, Prod.swap_prod_mk,
      add_sub_cancel_right, e1, e2, e3, e4, Option.bind_eq_bind, Option.bind_some, Option.some.injEq, concentrationFluxX, concentrationFluxY,
      h0, z1, z2, z3, z4, o, y1.1, y1.2, y2.1, y2.2, y3.1, y3.2, y4.1, y4.2, e0]
    field_simp
    ring
  · have : 0 < mob * v * (p1 + q1) / (2 * (dx * dx)) := by positivity
    nlinarith

/-! ## Examples -/

/-- One cell, filled through its four sides. -/
noncomputable def filling (t : ℝ) : Field2 := fun i j => if i = 0 ∧ j = 0 then 1 - Real.exp (-8 * t) else 1 + Real.exp (-8 * t)

theorem filling_deriv (t : ℝ) : HasDerivAt (fun s => filling s 0 0) (8 * Real.exp (-8 * t)) t := by
  simp only [filling, and_self, if_true]
  have h1 : HasDerivAt (fun s : ℝ => -8 * s) (-8) t := by simpa using (hasDerivAt_id t).const_mul (-8)
  exact (h1.exp.const_sub 1).congr_deriv (by ring)

theorem filling_nb (t : ℝ) : filling t 1 0 = 1 + Real.exp (-8 * t) ∧ filling t (-1) 0 = 1 + Real.exp (-8 * t) ∧
    filling t 0 1 = 1 + Real.exp (-8 * t) ∧ filling t 0 (-1) = 1 + Real.exp (-8 * t) ∧ filling t 0 0 = 1 - Real.exp (-8 * t) := by
  simp [filling]

/-- All hypotheses of the range theorem hold for it, with bounds zero and one. -/
example (T : ℝ) : ∀ t ∈ Icc 0 T, ∀ p ∈ ({(0, 0)} : Finset (ℤ × ℤ)), filling t p.1 p.2 ∈ Icc (0 : ℝ) 1 := by
  refine c134_range_2d_partial (fun _ => .fixed) 1 1 1 one_pos one_pos zero_le_one 1 1 (by simp) (fun _ _ _ _ => 1) (fun _ _ _ _ => 1)
    (fun _ _ _ _ => 0) (fun _ _ _ _ => 0) (fun t _ => filling t) {(0, 0)} T 1 0 1 ?_ ?_ (fun _ _ _ _ => trivial) ?_ ?_ ?_
  · intro t _ d hd i j
    simp only [List.mem_cons, List.not_mem_nil, or_false] at hd
    rcases hd with rfl | rfl | rfl | rfl <;> norm_num
  · intro t _ d hd k hk hne
    simp only [Finset.mem_Icc] at hk
    omega
  · intro t _ p hp q hq
    rw [Finset.mem_singleton] at hp
    subst hp
    obtain ⟨h1, h2, h3, h4, h5⟩ := filling_nb t
    simp only [List.mem_cons, List.not_mem_nil, or_false, zero_add, zero_sub] at hq
    right
    rcases hq with rfl | rfl | rfl | rfl <;> simp only [h1, h2, h3, h4, h5] <;> constructor <;> linarith
  · intro t _ p hp
    rw [Finset.mem_singleton] at hp
    subst hp
    obtain ⟨h1, h2, h3, h4, h5⟩ := filling_nb t
    refine (filling_deriv t).congr_deriv ?_
    simp only [rate2, rhs2, fluxX, fluxY, addX, addY, addFluxX, addFluxY, sum1, frameTerm, zero_add, zero_sub, sub_self, h1, h2, h3, h4, h5]
    ring
  · intro p hp
    rw [Finset.mem_singleton] at hp
    subst hp
    simp [filling]

/-- All hypotheses of the phase-gradient theorem hold for it. -/
example (T : ℝ) : ∀ t ∈ Icc 0 T, ∀ p ∈ ({(0, 0)} : Finset (ℤ × ℤ)), 0 ≤ filling t p.1 p.2 := by
  refine c134_kks_2d_partial (it := 'p') (ic := 'p') (at_ := 'a') (by simp [fitting]) (Or.inl rfl) 1 (1 / 2) ⟨1, 0⟩ ⟨1, 0⟩ one_pos (by simp) (by simp) (by norm_num) 1 1 1
    zero_le_one (fun _ _ _ => 1) (fun _ _ _ => 0) (fun _ _ _ => 1 / 2) filling (fun t i j => 1 / 2 * filling t i j) filling {(0, 0)} T ?_ ?_ ?_ ?_
  · intro t _
    refine ⟨fun _ _ => by norm_num, fun _ _ => by norm_num, fun _ _ => by norm_num, fun i j => ?_⟩
    simp [partitionSplit, interpFunc, clamp]
  · intro t _ p hp q hq
    rw [Finset.mem_singleton] at hp
    subst hp
    obtain ⟨h1, h2, h3, h4, h5⟩ := filling_nb t
    simp only [List.mem_cons, List.not_mem_nil, or_false, zero_add, zero_sub] at hq
    right
    rcases hq with rfl | rfl | rfl | rfl <;> simp only [h1, h2, h3, h4, h5] <;> linarith
  · intro t _ p hp
    rw [Finset.mem_singleton] at hp
    subst hp
    obtain ⟨h1, h2, h3, h4, h5⟩ := filling_nb t
    refine ⟨8 * Real.exp (-8 * t), ?_, filling_deriv t⟩
    simp [kksRate2, kksFluxX, kksFluxY, kksDiff, kksCoef, twoPhase, avgP, averageFunc, interpFunc, derivInterpFunc, clamp, X, Y, rate,
      concentrationFluxX, concentrationFluxY, h1, h2, h3, h4, h5]
    ring
  · intro p hp
    rw [Finset.mem_singleton] at hp
    subst hp
    simp [filling]

/-- The hypotheses of `c134_violation_kks_linear` are met: a solid cell next to one with phase 0.9, partition coefficient 0.01. -/
example : ∃ w, interpFunc 'p' (9 / 10) = some w ∧ 2 < (1 - 1 / 100) / (1 - w + 1 / 100 * w) * (1 - 9 / 10) := by
  refine ⟨_, Coupling.Props.interp_p (by norm_num) (by norm_num), ?_⟩
  norm_num

/-- A solution that the fourth-order stencil makes negative. -/
example : ∃ c : ℝ → ℕ → Field2, c 0 1 = only 2 0 1 ∧ (∀ a b, 0 ≤ c 0 1 a b) ∧ ∃ τ > 0, ∀ t ∈ Ioo 0 τ, c t 1 0 0 < 0 := by
  set r := rate2 (.order4 0 9 0 9 true true true true) none .fixed 1 1 1 1 (fun _ _ _ => 1) (fun _ _ _ => 1) (fun _ _ _ => 1) (fun _ _ _ => 1)
    (fun _ => only 2 0 1) (fun _ => only 2 0 1) (fun _ => only 2 0 1) 1 0 0 with hr
  refine ⟨fun t _ i j => only 2 0 1 i j + t * r, by simp, fun a b => by simpa using only_nonneg zero_le_one a b, ?_⟩
  refine c134_violation_order4 0 9 0 9 true true true true 1 1 1 1 one_pos one_pos one_pos (fun _ _ _ => 1) (fun _ _ _ => 1) (fun _ _ _ => 1)
    (fun _ _ _ => 1) (fun t _ i j => only 2 0 1 i j + t * r) 0 0 (by norm_num) (by norm_num) (by simp) ?_
  have : HasDerivAt (fun s : ℝ => only 2 0 1 0 0 + s * r) r 0 := by simpa using ((hasDerivAt_id (0 : ℝ)).mul_const r).const_add (only 2 0 1 0 0)
  simpa [hr] using this

end AMPE.SoluteBounds.Props
