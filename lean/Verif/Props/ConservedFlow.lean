import Verif.Model.ConservedFlow
import Verif.Props.Flux
import Verif.Props.MultiOrder
import Verif.Props.Interface
import Verif.Proofs.PhaseFlow

/-! # C82: Cahn-Hilliard and sintering runs conserve composition and lower the free energy -/

namespace AMPE.ConservedFlow.Props

open AMPE.Flux AMPE.Flux.Props AMPE.PhaseRHS AMPE.PhaseRHS.Props AMPE.Interface AMPE.ConservedFlow

/-! ## Specification -/

/-- Sum over the cells of one period. -/
def total (N M : ℕ) (lo0 lo1 : ℤ) (F : Field2) : ℝ :=
  ∑ b ∈ Finset.range M, ∑ a ∈ Finset.range N, F (lo0 + (a : ℤ)) (lo1 + (b : ℤ))

/-- Squared gradient on the faces, `d0`, `d1` being weights. -/
noncomputable def faceSq (dx dy : ℝ) (d0 d1 u : Field2) : Field2 := fun i j =>
  d0 i j * ((u i j - u (i - 1) j) / dx) ^ 2 + d1 i j * ((u i j - u i (j - 1)) / dy) ^ 2

/-- The free energy of the Cahn-Hilliard model, per cell volume. -/
noncomputable def chEnergy (N M : ℕ) (lo0 lo1 : ℤ) (dx dy ca cb w kappa : ℝ) (c : Field2) : ℝ :=
  total N M lo0 lo1 (fun i j => w * (c i j - ca) ^ 2 * (cb - c i j) ^ 2)
    + kappa / 2 * total N M lo0 lo1 (faceSq dx dy (fun _ _ => 1) (fun _ _ => 1) c)

/-- The free energy of the sintering model with gradient coefficients `beta` of the composition and `kappa` of the order
parameters, per cell volume. -/
noncomputable def sinterEnergy (N M : ℕ) (lo0 lo1 : ℤ) (dx dy A B beta kappa : ℝ) (n : ℕ) (c : Field2) (phi : ℕ → Field2) : ℝ :=
  total N M lo0 lo1 (fun i j => wangEnergy n A B (c i j) (fun k => phi (k.val + 1) i j))
    + beta / 2 * total N M lo0 lo1 (faceSq dx dy (fun _ _ => 1) (fun _ _ => 1) c)
    + kappa / 2 * ∑ k : Fin n, total N M lo0 lo1 (faceSq dx dy (fun _ _ => 1) (fun _ _ => 1) (phi (k.val + 1)))

/-- `v` is what the patches of some decomposition compute: every cell lies in a patch whose rate there is `v`. -/
def OnPatches (rate : ℤ → ℤ → ℤ → ℤ → Field2) (v : Field2) : Prop :=
  ∀ i j, ∃ f0 l0 f1 l1, f0 ≤ i ∧ i ≤ l0 ∧ f1 ≤ j ∧ j ≤ l1 ∧ v i j = rate f0 l0 f1 l1 i j

/-! ## Helpers -/

theorem total_congr {N M : ℕ} {lo0 lo1 : ℤ} {F G : Field2} (h : ∀ i j, F i j = G i j) : total N M lo0 lo1 F = total N M lo0 lo1 G := by
  have : F = G := by funext i j; exact h i j
  rw [this]

theorem total_add (N M : ℕ) (lo0 lo1 : ℤ) (F G : Field2) :
    total N M lo0 lo1 (fun i j => F i j + G i j) = total N M lo0 lo1 F + total N M lo0 lo1 G := by
  simp only [total, Finset.sum_add_distrib]

theorem total_mul (N M : ℕ) (lo0 lo1 : ℤ) (k : ℝ) (F : Field2) :
    total N M lo0 lo1 (fun i j => k * F i j) = k * total N M lo0 lo1 F := by
  simp only [total, Finset.mul_sum]

theorem total_sum {n : ℕ} (N M : ℕ) (lo0 lo1 : ℤ) (F : Fin n → Field2) :
    total N M lo0 lo1 (fun i j => ∑ k, F k i j) = ∑ k, total N M lo0 lo1 (F k) := by
  simp only [total]
  rw [Finset.sum_comm]
  conv_rhs => rw [Finset.sum_comm]
  rw [Finset.sum_comm]
  refine Finset.sum_congr rfl fun b _ => ?_
  rw [Finset.sum_comm]

theorem total_nonneg {N M : ℕ} {lo0 lo1 : ℤ} {F : Field2} (h : ∀ i j, 0 ≤ F i j) : 0 ≤ total N M lo0 lo1 F := by
  unfold total
  exact Finset.sum_nonneg fun _ _ => Finset.sum_nonneg fun _ _ => h _ _

theorem total_deriv {N M : ℕ} {lo0 lo1 : ℤ} {F : ℝ → Field2} {F' : Field2} {t : ℝ} (h : ∀ i j, HasDerivAt (fun s => F s i j) (F' i j) t) :
    HasDerivAt (fun s => total N M lo0 lo1 (F s)) (total N M lo0 lo1 F') t := by
  unfold total
  exact HasDerivAt.fun_sum fun b _ => HasDerivAt.fun_sum fun a _ => h _ _

/-- Summation by parts, direction 0. -/
theorem partsX {N M : ℕ} {g F : Field2} (lo0 lo1 : ℤ) (hg : Periodic2 N M g) (hF : Periodic2 N M F) :
    total N M lo0 lo1 (fun i j => g i j * (F (i + 1) j - F i j)) = -total N M lo0 lo1 (fun i j => (g i j - g (i - 1) j) * F i j) := by
  unfold total
  rw [← Finset.sum_neg_distrib]
  refine Finset.sum_congr rfl fun b _ => ?_
  have h := sum_shift1 N lo0 (fun i => g (i - 1) (lo1 + b) * F i (lo1 + b))
    (fun i => by rw [hF.1, show i + (N : ℤ) - 1 = i - 1 + N by ring, hg.1])
  simp only [add_sub_cancel_right] at h
  rw [← Finset.sum_neg_distrib]
  have e1 : ∑ a ∈ Finset.range N, g (lo0 + a) (lo1 + b) * (F (lo0 + a + 1) (lo1 + b) - F (lo0 + a) (lo1 + b)) =
      ∑ a ∈ Finset.range N, g (lo0 + a) (lo1 + b) * F (lo0 + a + 1) (lo1 + b)
        - ∑ a ∈ Finset.range N, g (lo0 + a) (lo1 + b) * F (lo0 + a) (lo1 + b) := by
    rw [← Finset.sum_sub_distrib]
    exact Finset.sum_congr rfl fun a _ => by ring
  rw [e1, h, ← Finset.sum_sub_distrib]
  exact Finset.sum_congr rfl fun a _ => by ring

/-- Summation by parts, direction 1. -/
theorem partsY {N M : ℕ} {g F : Field2} (lo0 lo1 : ℤ) (hg : Periodic2 N M g) (hF : Periodic2 N M F) :
    total N M lo0 lo1 (fun i j => g i j * (F i (j + 1) - F i j)) = -total N M lo0 lo1 (fun i j => (g i j - g i (j - 1)) * F i j) := by
  have h := partsX (N := M) (M := N) (g := fun i j => g j i) (F := fun i j => F j i) lo1 lo0 ⟨fun i j => hg.2 j i, fun i j => hg.1 j i⟩
    ⟨fun i j => hF.2 j i, fun i j => hF.1 j i⟩
  unfold total at h ⊢
  rw [Finset.sum_comm, h]
  congr 1
  rw [Finset.sum_comm]

theorem faceSq_deriv {N M : ℕ} (lo0 lo1 : ℤ) (dx dy : ℝ) {u : ℝ → Field2} {v : Field2} {t : ℝ} (hp : ∀ s, Periodic2 N M (u s))
    (hu : ∀ i j, HasDerivAt (fun s => u s i j) (v i j) t) :
    HasDerivAt (fun s => total N M lo0 lo1 (faceSq dx dy (fun _ _ => 1) (fun _ _ => 1) (u s)))
      (-2 * total N M lo0 lo1 (fun i j => lap2 dx dy (u t) i j * v i j)) t := by
  have hv := Periodic2.deriv hp hu
  have cell : ∀ i j, HasDerivAt (fun s => faceSq dx dy (fun _ _ => 1) (fun _ _ => 1) (u s) i j)
      (2 * ((v i j - v (i - 1) j) * ((u t i j - u t (i - 1) j) / dx ^ 2)) + 2 * ((v i j - v i (j - 1)) * ((u t i j - u t i (j - 1)) / dy ^ 2))) t := by
    intro i j
    have h1 := ((((hu i j).sub (hu (i - 1) j)).div_const dx).pow 2).const_mul 1
    have h2 := ((((hu i j).sub (hu i (j - 1))).div_const dy).pow 2).const_mul 1
    refine (h1.add h2).congr_deriv ?_
    simp only [Pi.sub_apply, div_eq_mul_inv, ← inv_pow]
    push_cast
    ring
  refine (total_deriv cell).congr_deriv ?_
  have pF : Periodic2 N M (fun i j => (u t i j - u t (i - 1) j) / dx ^ 2) :=
    ⟨fun i j => by beta_reduce; rw [(hp t).1, show i + (N : ℤ) - 1 = i - 1 + N by ring, (hp t).1], fun i j => by beta_reduce; rw [(hp t).2, (hp t).2]⟩
  have pG : Periodic2 N M (fun i j => (u t i j - u t i (j - 1)) / dy ^ 2) :=
    ⟨fun i j => by beta_reduce; rw [(hp t).1, (hp t).1], fun i j => by beta_reduce; rw [(hp t).2, show j + (M : ℤ) - 1 = j - 1 + M by ring, (hp t).2]⟩
  have hX := partsX lo0 lo1 hv pF
  have hY := partsY lo0 lo1 hv pG
  rw [total_add, total_mul, total_mul, ← neg_eq_iff_eq_neg.mpr hX, ← neg_eq_iff_eq_neg.mpr hY]
  have e : total N M lo0 lo1 (fun i j => lap2 dx dy (u t) i j * v i j) =
      total N M lo0 lo1 (fun i j => v i j * ((u t (i + 1) j - u t (i + 1 - 1) j) / dx ^ 2 - (u t i j - u t (i - 1) j) / dx ^ 2))
      + total N M lo0 lo1 (fun i j => v i j * ((u t i (j + 1) - u t i (j + 1 - 1)) / dy ^ 2 - (u t i j - u t i (j - 1)) / dy ^ 2)) := by
    rw [← total_add]
    refine total_congr fun i j => ?_
    simp only [lap2, add_sub_cancel_right, div_eq_mul_inv, ← inv_pow]
    ring
  rw [e]
  ring

theorem lap2_periodic {N M : ℕ} (dx dy : ℝ) {u : Field2} (hp : Periodic2 N M u) : Periodic2 N M (lap2 dx dy u) := by
  refine ⟨fun i j => ?_, fun i j => ?_⟩
  · simp only [lap2]
    rw [hp.1, hp.1, hp.1, show i + (N : ℤ) - 1 = i - 1 + N by ring, show i + (N : ℤ) + 1 = i + 1 + N by ring, hp.1, hp.1]
  · simp only [lap2]
    rw [hp.2, hp.2, hp.2, show j + (M : ℤ) - 1 = j - 1 + M by ring, show j + (M : ℤ) + 1 = j + 1 + M by ring, hp.2, hp.2]

/-- The rate computed on a patch is the divergence of mobility times gradient of the potential. -/
theorem rate_eq (f0 l0 f1 l1 : ℤ) (dx dy m mob : ℝ) (d0 d1 mu : Field2) (i j : ℤ) (h : f0 ≤ i ∧ i ≤ l0 ∧ f1 ≤ j ∧ j ≤ l1) :
    rhs2 dx dy m (fun i j => scatterX f0 l0 f1 l1 dx mob d0 mu (fun _ => 0) (i, j))
      (fun i j => scatterY f0 l0 f1 l1 dy mob d1 mu (fun _ => 0) (i, j)) i j =
    m * mob * ((d0 (i + 1) j * ((mu (i + 1) j - mu i j) / dx) - d0 i j * ((mu i j - mu (i - 1) j) / dx)) / dx
      + (d1 i (j + 1) * ((mu i (j + 1) - mu i j) / dy) - d1 i j * ((mu i j - mu i (j - 1)) / dy)) / dy) := by
  obtain ⟨h1, h2, h3, h4⟩ := h
  unfold rhs2
  beta_reduce
  rw [(c51_scatter f0 l0 f1 l1 dx mob d0 mu (fun _ => 0) (i + 1) j).1 (by omega) (by omega) h3 h4,
    (c51_scatter f0 l0 f1 l1 dx mob d0 mu (fun _ => 0) i j).1 (by omega) (by omega) h3 h4,
    (c51_scatter f0 l0 f1 l1 dy mob d1 mu (fun _ => 0) i (j + 1)).2 h1 h2 (by omega) (by omega),
    (c51_scatter f0 l0 f1 l1 dy mob d1 mu (fun _ => 0) i j).2 h1 h2 (by omega) (by omega), add_sub_cancel_right, add_sub_cancel_right]
  simp only [div_eq_mul_inv]
  ring

/-- Testing the rate against a periodic field. -/
theorem rate_test {N M : ℕ} (lo0 lo1 : ℤ) (dx dy k : ℝ) {d0 d1 mu g v : Field2} (h0 : Periodic2 N M d0) (h1 : Periodic2 N M d1)
    (hmu : Periodic2 N M mu) (hg : Periodic2 N M g)
    (hv : ∀ i j, v i j = k * ((d0 (i + 1) j * ((mu (i + 1) j - mu i j) / dx) - d0 i j * ((mu i j - mu (i - 1) j) / dx)) / dx
      + (d1 i (j + 1) * ((mu i (j + 1) - mu i j) / dy) - d1 i j * ((mu i j - mu i (j - 1)) / dy)) / dy)) :
    total N M lo0 lo1 (fun i j => g i j * v i j) = -k * total N M lo0 lo1 (fun i j =>
      d0 i j * ((g i j - g (i - 1) j) / dx) * ((mu i j - mu (i - 1) j) / dx)
        + d1 i j * ((g i j - g i (j - 1)) / dy) * ((mu i j - mu i (j - 1)) / dy)) := by
  have pF : Periodic2 N M (fun i j => d0 i j * ((mu i j - mu (i - 1) j) / dx) / dx) :=
    ⟨fun i j => by beta_reduce; rw [h0.1, hmu.1, show i + (N : ℤ) - 1 = i - 1 + N by ring, hmu.1], fun i j => by beta_reduce; rw [h0.2, hmu.2, hmu.2]⟩
  have pG : Periodic2 N M (fun i j => d1 i j * ((mu i j - mu i (j - 1)) / dy) / dy) :=
    ⟨fun i j => by beta_reduce; rw [h1.1, hmu.1, hmu.1], fun i j => by beta_reduce; rw [h1.2, hmu.2, show j + (M : ℤ) - 1 = j - 1 + M by ring, hmu.2]⟩
  have hX := partsX lo0 lo1 hg pF
  have hY := partsY lo0 lo1 hg pG
  simp only [add_sub_cancel_right] at hX hY
  have e : total N M lo0 lo1 (fun i j => g i j * v i j) =
      k * (total N M lo0 lo1 (fun i j => g i j * (d0 (i + 1) j * ((mu (i + 1) j - mu i j) / dx) / dx - d0 i j * ((mu i j - mu (i - 1) j) / dx) / dx))
      + total N M lo0 lo1 (fun i j => g i j * (d1 i (j + 1) * ((mu i (j + 1) - mu i j) / dy) / dy - d1 i j * ((mu i j - mu i (j - 1)) / dy) / dy))) := by
    rw [← total_add, ← total_mul]
    refine total_congr fun i j => ?_
    rw [hv]
    simp only [div_eq_mul_inv]
    ring
  rw [e, hX, hY, total_add, neg_mul, ← mul_neg, neg_add]
  congr 2
  · congr 1; refine total_congr fun i j => ?_; simp only [div_eq_mul_inv]; ring
  · congr 1; refine total_congr fun i j => ?_; simp only [div_eq_mul_inv]; ring

theorem const_periodic (N M : ℕ) (k : ℝ) : Periodic2 N M (fun _ _ => k) := ⟨fun _ _ => rfl, fun _ _ => rfl⟩

theorem muCH_periodic {N M : ℕ} (ca cb w kappa dx dy : ℝ) {c : Field2} (hp : Periodic2 N M c) : Periodic2 N M (muCH ca cb w kappa dx dy c) := by
  have hl := lap2_periodic dx dy hp
  refine ⟨fun i j => ?_, fun i j => ?_⟩
  · simp only [muCH]; rw [hp.1, hl.1]
  · simp only [muCH]; rw [hp.2, hl.2]

theorem muWang_periodic {N M : ℕ} (a b beta dx dy : ℝ) (n : ℕ) {c : Field2} {phi : ℕ → Field2} (hp : Periodic2 N M c)
    (hq : ∀ k, Periodic2 N M (phi k)) : Periodic2 N M (muWang a b beta dx dy n c phi) := by
  have hl := lap2_periodic dx dy hp
  refine ⟨fun i j => ?_, fun i j => ?_⟩
  · simp only [muWang]; rw [hp.1, hl.1]; simp only [(hq _).1]
  · simp only [muWang]; rw [hp.2, hl.2]; simp only [(hq _).2]

/-! ## Cahn-Hilliard -/

theorem ch_rate {dx dy m ca cb w kappa : ℝ} {c v : Field2} (hv : OnPatches (fun f0 l0 f1 l1 => chRate f0 l0 f1 l1 dx dy m ca cb w kappa c) v)
    (i j : ℤ) :
    v i j = m * ((1 * ((muCH ca cb w kappa dx dy c (i + 1) j - muCH ca cb w kappa dx dy c i j) / dx)
        - 1 * ((muCH ca cb w kappa dx dy c i j - muCH ca cb w kappa dx dy c (i - 1) j) / dx)) / dx
      + (1 * ((muCH ca cb w kappa dx dy c i (j + 1) - muCH ca cb w kappa dx dy c i j) / dy)
        - 1 * ((muCH ca cb w kappa dx dy c i j - muCH ca cb w kappa dx dy c i (j - 1)) / dy)) / dy) := by
  obtain ⟨f0, l0, f1, l1, h1, h2, h3, h4, h⟩ := hv i j
  rw [h]
  unfold chRate
  simp only
  rw [rate_eq f0 l0 f1 l1 dx dy m 1 (fun _ _ => 1) (fun _ _ => 1) _ i j ⟨h1, h2, h3, h4⟩, mul_one]

/-- **C82**: a Cahn-Hilliard run conserves the total composition. -/
theorem c82_ch_conserves (N M : ℕ) (lo0 lo1 : ℤ) (dx dy m ca cb w kappa : ℝ) (c v : Field2) (hp : Periodic2 N M c)
    (hv : OnPatches (fun f0 l0 f1 l1 => chRate f0 l0 f1 l1 dx dy m ca cb w kappa c) v) : total N M lo0 lo1 v = 0 := by
  have h := rate_test lo0 lo1 dx dy m (const_periodic N M 1) (const_periodic N M 1) (muCH_periodic ca cb w kappa dx dy hp)
    (const_periodic N M 1) (ch_rate hv)
  simp only [one_mul, sub_self, zero_div, zero_mul, add_zero] at h
  rw [h]
  simp [total]

/-- **C82**: along a Cahn-Hilliard run the free energy changes at minus the mobility times the squared gradient of the
chemical potential, ... -/
theorem c82_ch_dissipation (N M : ℕ) (lo0 lo1 : ℤ) (dx dy m ca cb w kappa : ℝ) (c : ℝ → Field2) (v : Field2) (t : ℝ)
    (hp : ∀ s, Periodic2 N M (c s)) (hc : ∀ i j, HasDerivAt (fun s => c s i j) (v i j) t)
    (hv : OnPatches (fun f0 l0 f1 l1 => chRate f0 l0 f1 l1 dx dy m ca cb w kappa (c t)) v) :
    HasDerivAt (fun s => chEnergy N M lo0 lo1 dx dy ca cb w kappa (c s))
      (-m * total N M lo0 lo1 (faceSq dx dy (fun _ _ => 1) (fun _ _ => 1) (muCH ca cb w kappa dx dy (c t)))) t := by
  have hb : ∀ i j, HasDerivAt (fun s => w * (c s i j - ca) ^ 2 * (cb - c s i j) ^ 2)
      (2 * w * (c t i j - ca) * (cb - c t i j) * (cb + ca - 2 * c t i j) * v i j) t := fun i j =>
    HasDerivAt.comp (h₂ := fun y : ℝ => w * (y - ca) ^ 2 * (cb - y) ^ 2) (h := fun s => c s i j) t (c51_mu_ch ca cb w (c t i j)) (hc i j)
  have h := (total_deriv (N := N) (M := M) (lo0 := lo0) (lo1 := lo1) hb).add ((faceSq_deriv lo0 lo1 dx dy hp hc).const_mul (kappa / 2))
  refine h.congr_deriv ?_
  have hmu := muCH_periodic (N := N) (M := M) ca cb w kappa dx dy (hp t)
  have ht := rate_test lo0 lo1 dx dy m (const_periodic N M 1) (const_periodic N M 1) hmu hmu (ch_rate hv)
  have e1 : total N M lo0 lo1 (fun i j => muCH ca cb w kappa dx dy (c t) i j * v i j) =
      total N M lo0 lo1 (fun i j => 2 * w * (c t i j - ca) * (cb - c t i j) * (cb + ca - 2 * c t i j) * v i j)
      + kappa / 2 * (-2 * total N M lo0 lo1 (fun i j => lap2 dx dy (c t) i j * v i j)) := by
    rw [← total_mul, ← total_mul, ← total_add]
    refine total_congr fun i j => ?_
    simp only [muCH]
    ring
  rw [← e1, ht]
  congr 1
  refine total_congr fun i j => ?_
  simp only [faceSq]
  ring

/-- ... so it never increases. -/
theorem c82_ch_decreases (N M : ℕ) (lo0 lo1 : ℤ) (dx dy m ca cb w kappa : ℝ) (hm : 0 ≤ m) (c : Field2) :
    -m * total N M lo0 lo1 (faceSq dx dy (fun _ _ => 1) (fun _ _ => 1) (muCH ca cb w kappa dx dy c)) ≤ 0 := by
  have : 0 ≤ total N M lo0 lo1 (faceSq dx dy (fun _ _ => 1) (fun _ _ => 1) (muCH ca cb w kappa dx dy c)) :=
    total_nonneg fun i j => by unfold faceSq; positivity
  rw [neg_mul]
  exact neg_nonpos.mpr (mul_nonneg hm this)

/-- **C82**: the Cahn-Hilliard rate is proportional to the mobility of the input. -/
theorem c82_ch_mobility (f0 l0 f1 l1 : ℤ) (dx dy m ca cb w kappa : ℝ) (c : Field2) (i j : ℤ) :
    chRate f0 l0 f1 l1 dx dy m ca cb w kappa c i j = m * chRate f0 l0 f1 l1 dx dy 1 ca cb w kappa c i j := by
  simp only [chRate, rhs2, one_mul]

/-! ## Sintering -/

theorem sinter_rate {dx dy m a b beta : ℝ} {d0 d1 : Field2} {n : ℕ} {c v : Field2} {phi : ℕ → Field2}
    (hv : OnPatches (fun f0 l0 f1 l1 => sinterConcRate f0 l0 f1 l1 dx dy m a b beta d0 d1 n c phi) v) (i j : ℤ) :
    v i j = m * m * ((d0 (i + 1) j * ((muWang a b beta dx dy n c phi (i + 1) j - muWang a b beta dx dy n c phi i j) / dx)
        - d0 i j * ((muWang a b beta dx dy n c phi i j - muWang a b beta dx dy n c phi (i - 1) j) / dx)) / dx
      + (d1 i (j + 1) * ((muWang a b beta dx dy n c phi i (j + 1) - muWang a b beta dx dy n c phi i j) / dy)
        - d1 i j * ((muWang a b beta dx dy n c phi i j - muWang a b beta dx dy n c phi i (j - 1)) / dy)) / dy) := by
  obtain ⟨f0, l0, f1, l1, h1, h2, h3, h4, h⟩ := hv i j
  rw [h]
  unfold sinterConcRate
  simp only
  rw [rate_eq f0 l0 f1 l1 dx dy m m d0 d1 _ i j ⟨h1, h2, h3, h4⟩]

/-- **C82**: a sintering run conserves the total composition. -/
theorem c82_sinter_conserves (N M : ℕ) (lo0 lo1 : ℤ) (dx dy m a b beta : ℝ) (d0 d1 : Field2) (n : ℕ) (c v : Field2) (phi : ℕ → Field2)
    (h0 : Periodic2 N M d0) (h1 : Periodic2 N M d1) (hp : Periodic2 N M c) (hq : ∀ k, Periodic2 N M (phi k))
    (hv : OnPatches (fun f0 l0 f1 l1 => sinterConcRate f0 l0 f1 l1 dx dy m a b beta d0 d1 n c phi) v) : total N M lo0 lo1 v = 0 := by
  have h := rate_test lo0 lo1 dx dy (m * m) h0 h1 (muWang_periodic a b beta dx dy n hp hq) (const_periodic N M 1) (sinter_rate hv)
  simp only [one_mul, sub_self, zero_div, mul_zero, zero_mul, add_zero] at h
  rw [h]
  simp [total]

/-- **C82**: along a sintering run (composition and order parameters moving together) the free energy, with the gradient
coefficient `epsilon · epsilon²/2` of the order parameters that the program effectively uses, changes at minus a sum of
squares. -/
theorem c82_sinter_dissipation (N M : ℕ) (lo0 lo1 : ℤ) (dx dy m a b beta eps : ℝ) (d0 d1 mob : Field2) (n : ℕ) (hn : 1 < n)
    (c : ℝ → Field2) (phi : ℝ → ℕ → Field2) (v : Field2) (r : Fin n → Field2) (t : ℝ)
    (h0 : Periodic2 N M d0) (h1 : Periodic2 N M d1)
    (hp : ∀ s, Periodic2 N M (c s)) (hq : ∀ s k, Periodic2 N M (phi s k)) (hc : ∀ i j, HasDerivAt (fun s => c s i j) (v i j) t)
    (hphi : ∀ (k : Fin n) i j, HasDerivAt (fun s => phi s (k.val + 1) i j) (r k i j) t)
    (hv : OnPatches (fun f0 l0 f1 l1 => sinterConcRate f0 l0 f1 l1 dx dy m a b beta d0 d1 n (c t) (phi t)) v)
    (hr : ∀ k i j, r k i j = sinterPhaseRate n eps b dx dy mob (c t) (phi t) k i j) :
    HasDerivAt (fun s => sinterEnergy N M lo0 lo1 dx dy a b beta (eps * (eps ^ 2 / 2)) n (c s) (phi s))
      (-(m * m) * total N M lo0 lo1 (faceSq dx dy d0 d1 (muWang a b beta dx dy n (c t) (phi t)))
        - ∑ k : Fin n, total N M lo0 lo1 (fun i j =>
          mob i j * sinterRate n false eps b dx dy (c t) (fun k => phi t (k.val + 1)) k i j ^ 2)) t := by
  have hb : ∀ i j, HasDerivAt (fun s => wangEnergy n a b (c s i j) (fun k : Fin n => phi s (k.val + 1) i j))
      (muWang a b 0 dx dy n (fun _ _ => c t i j) (phi t) i j * v i j
        - ∑ p, wangRate n eps b (c t i j) (fun _ => 0) (fun k : Fin n => phi t (k.val + 1) i j) p * r p i j) t := fun i j =>
    c54_common_energy n a b eps (fun s => c s i j) (fun s k => phi s (k.val + 1) i j) (v i j) (fun k => r k i j) t (hc i j)
      (fun k => hphi k i j) (phi t) i j dx dy (fun _ => rfl)
  have hs := HasDerivAt.fun_sum (u := (Finset.univ : Finset (Fin n))) fun k _ =>
    faceSq_deriv (u := fun s => phi s (k.val + 1)) lo0 lo1 dx dy (fun s => hq s _) (hphi k)
  have h := ((total_deriv (N := N) (M := M) (lo0 := lo0) (lo1 := lo1) hb).add ((faceSq_deriv lo0 lo1 dx dy hp hc).const_mul (beta / 2))).add
    (hs.const_mul (eps * (eps ^ 2 / 2) / 2))
  refine h.congr_deriv ?_
  have hmu := muWang_periodic (N := N) (M := M) a b beta dx dy n (hp t) (hq t)
  have ht := rate_test lo0 lo1 dx dy (m * m) h0 h1 hmu hmu (sinter_rate hv)
  have ef : total N M lo0 lo1 (faceSq dx dy d0 d1 (muWang a b beta dx dy n (c t) (phi t))) =
      total N M lo0 lo1 (fun i j =>
        d0 i j * ((muWang a b beta dx dy n (c t) (phi t) i j - muWang a b beta dx dy n (c t) (phi t) (i - 1) j) / dx)
          * ((muWang a b beta dx dy n (c t) (phi t) i j - muWang a b beta dx dy n (c t) (phi t) (i - 1) j) / dx)
        + d1 i j * ((muWang a b beta dx dy n (c t) (phi t) i j - muWang a b beta dx dy n (c t) (phi t) i (j - 1)) / dy)
          * ((muWang a b beta dx dy n (c t) (phi t) i j - muWang a b beta dx dy n (c t) (phi t) i (j - 1)) / dy)) :=
    total_congr fun i j => by simp only [faceSq]; ring
  rw [ef, ← ht, ← total_sum]
  have er : ∀ (k : Fin n) i j, sinterRate n false eps b dx dy (c t) (fun k => phi t (k.val + 1)) k i j =
      eps * (eps ^ 2 / 2) * lap2 dx dy (phi t (k.val + 1)) i j
        + wangRate n eps b (c t i j) (fun _ => 0) (fun k : Fin n => phi t (k.val + 1) i j) k := by
    intro k i j
    have hd : fluxDiv false (fluxEpsilon n false eps) dx dy (phi t (k.val + 1)) i j = eps ^ 2 / 2 * lap2 dx dy (phi t (k.val + 1)) i j := by
      rw [← AMPE.Interface.Props.flux_eps_sq n hn]
      simp only [fluxDiv, Bool.false_eq_true, if_false, div2, gradFluxX, gradFluxY, lap2, div_eq_mul_inv, one_mul, add_sub_cancel_right]
      ring
    simp only [sinterRate, wangRate, hd]
    ring
  have key : total N M lo0 lo1 (fun i j => muWang a b beta dx dy n (c t) (phi t) i j * v i j)
      - total N M lo0 lo1 (fun i j => ∑ k : Fin n, mob i j * sinterRate n false eps b dx dy (c t) (fun k => phi t (k.val + 1)) k i j ^ 2) =
      total N M lo0 lo1 (fun i j => muWang a b 0 dx dy n (fun _ _ => c t i j) (phi t) i j * v i j
        - ∑ p, wangRate n eps b (c t i j) (fun _ => 0) (fun k : Fin n => phi t (k.val + 1) i j) p * r p i j)
      + beta / 2 * (-2 * total N M lo0 lo1 (fun i j => lap2 dx dy (c t) i j * v i j))
      + eps * (eps ^ 2 / 2) / 2 * ∑ k : Fin n, -2 * total N M lo0 lo1 (fun i j => lap2 dx dy (phi t (k.val + 1)) i j * r k i j) := by
    rw [← Finset.mul_sum, ← total_sum, ← total_mul, ← total_mul, ← total_mul, ← total_mul, ← total_add, ← total_add, sub_eq_add_neg,
      ← neg_one_mul, ← total_mul, ← total_add]
    refine total_congr fun i j => ?_
    have e1 : (∑ k : Fin n, mob i j * sinterRate n false eps b dx dy (c t) (fun k => phi t (k.val + 1)) k i j ^ 2) =
        eps * (eps ^ 2 / 2) * (∑ k : Fin n, lap2 dx dy (phi t (k.val + 1)) i j * r k i j)
        + ∑ p, wangRate n eps b (c t i j) (fun _ => 0) (fun k : Fin n => phi t (k.val + 1) i j) p * r p i j := by
      rw [Finset.mul_sum, ← Finset.sum_add_distrib]
      refine Finset.sum_congr rfl fun k _ => ?_
      rw [hr]
      simp only [sinterPhaseRate]
      rw [er]
      ring
    rw [e1]
    simp only [muWang]
    simp only [lap2]
    ring
  rw [key]

/-- ... so for non-negative mobilities and diffusion coefficients it never increases. -/
theorem c82_sinter_decreases (N M : ℕ) (lo0 lo1 : ℤ) (dx dy m a b beta eps : ℝ) (d0 d1 mob : Field2) (n : ℕ) (c : Field2) (phi : ℕ → Field2)
    (h0 : ∀ i j, 0 ≤ d0 i j) (h1 : ∀ i j, 0 ≤ d1 i j) (hm : ∀ i j, 0 ≤ mob i j) :
    -(m * m) * total N M lo0 lo1 (faceSq dx dy d0 d1 (muWang a b beta dx dy n c phi))
        - ∑ k : Fin n, total N M lo0 lo1 (fun i j =>
          mob i j * sinterRate n false eps b dx dy c (fun k => phi (k.val + 1)) k i j ^ 2) ≤ 0 := by
  have e1 : 0 ≤ total N M lo0 lo1 (faceSq dx dy d0 d1 (muWang a b beta dx dy n c phi)) :=
    total_nonneg fun i j => by unfold faceSq; have := h0 i j; have := h1 i j; positivity
  have e2 : 0 ≤ ∑ k : Fin n, total N M lo0 lo1 (fun i j =>
          mob i j * sinterRate n false eps b dx dy c (fun k => phi (k.val + 1)) k i j ^ 2) :=
    Finset.sum_nonneg fun k _ => total_nonneg fun i j => mul_nonneg (hm i j) (sq_nonneg _)
  have e3 := mul_nonneg (mul_self_nonneg m) e1
  linarith

/-- **C82** (violation): the mobility of the input enters the composition rate of the sintering model twice: the rate is its
square times the rate for unit mobility, so it is the requested multiple only for mobility 0 or 1 or a vanishing rate. -/
theorem c82_violation_mobility (f0 l0 f1 l1 : ℤ) (dx dy m a b beta : ℝ) (d0 d1 : Field2) (n : ℕ) (c : Field2) (phi : ℕ → Field2) (i j : ℤ)
    (h : f0 ≤ i ∧ i ≤ l0 ∧ f1 ≤ j ∧ j ≤ l1) :
    sinterConcRate f0 l0 f1 l1 dx dy m a b beta d0 d1 n c phi i j = m ^ 2 * sinterConcRate f0 l0 f1 l1 dx dy 1 a b beta d0 d1 n c phi i j ∧
    (sinterConcRate f0 l0 f1 l1 dx dy m a b beta d0 d1 n c phi i j = m * sinterConcRate f0 l0 f1 l1 dx dy 1 a b beta d0 d1 n c phi i j ↔
      m = 0 ∨ m = 1 ∨ sinterConcRate f0 l0 f1 l1 dx dy 1 a b beta d0 d1 n c phi i j = 0) := by
  have e : sinterConcRate f0 l0 f1 l1 dx dy m a b beta d0 d1 n c phi i j =
      m ^ 2 * sinterConcRate f0 l0 f1 l1 dx dy 1 a b beta d0 d1 n c phi i j := by
    simp only [sinterConcRate]
    rw [rate_eq _ _ _ _ _ _ _ _ _ _ _ _ _ h, rate_eq _ _ _ _ _ _ _ _ _ _ _ _ _ h]
    ring
  refine ⟨e, ?_⟩
  rw [e]
  generalize sinterConcRate f0 l0 f1 l1 dx dy 1 a b beta d0 d1 n c phi i j = R
  constructor
  · intro h
    have h2 : m * ((m - 1) * R) = 0 := by linear_combination h
    rcases mul_eq_zero.mp h2 with h3 | h3
    · exact Or.inl h3
    · rcases mul_eq_zero.mp h3 with h4 | h4
      · exact Or.inr (Or.inl (by linarith))
      · exact Or.inr (Or.inr h4)
  · rintro (rfl | rfl | h)
    · ring
    · ring
    · rw [h]; ring

/-! ## The hypotheses are met -/

/-- A two-cell periodic pattern, its rate, and the straight line through it. -/
example : ∃ (c : ℝ → Field2) (v : Field2), (∀ s, Periodic2 2 1 (c s)) ∧ (∀ i j, HasDerivAt (fun s => c s i j) (v i j) 0) ∧
    OnPatches (fun f0 l0 f1 l1 => chRate f0 l0 f1 l1 1 1 1 0 1 1 1 (c 0)) v ∧ c 0 0 0 ≠ c 0 1 0 := by
  let c0 : Field2 := fun i _ => if i % 2 = 0 then 1 else 0
  have hp : Periodic2 2 1 c0 := ⟨fun i j => by simp only [c0]; norm_num, fun i j => rfl⟩
  let v : Field2 := fun i j => chRate i i j j 1 1 1 0 1 1 1 c0 i j
  have hv : OnPatches (fun f0 l0 f1 l1 => chRate f0 l0 f1 l1 1 1 1 0 1 1 1 c0) v := fun i j =>
    ⟨i, i, j, j, le_refl _, le_refl _, le_refl _, le_refl _, rfl⟩
  have hmu := muCH_periodic (N := 2) (M := 1) 0 1 1 1 1 1 hp
  have hvp : Periodic2 2 1 v := by
    refine ⟨fun i j => ?_, fun i j => ?_⟩
    · rw [ch_rate hv, ch_rate hv, show i + ((2 : ℕ) : ℤ) + 1 = i + 1 + (2 : ℕ) by ring, show i + ((2 : ℕ) : ℤ) - 1 = i - 1 + (2 : ℕ) by ring,
        hmu.1, hmu.1, hmu.1, hmu.1, hmu.1]
    · rw [ch_rate hv, ch_rate hv, show j + ((1 : ℕ) : ℤ) + 1 = j + 1 + (1 : ℕ) by ring, show j + ((1 : ℕ) : ℤ) - 1 = j - 1 + (1 : ℕ) by ring,
        hmu.2, hmu.2, hmu.2, hmu.2, hmu.2]
  refine ⟨fun s i j => c0 i j + s * v i j, v, fun s => ⟨fun i j => by beta_reduce; rw [hp.1 i j, hvp.1 i j], fun i j => by beta_reduce; rw [hp.2 i j, hvp.2 i j]⟩, fun i j => ?_, ?_, ?_⟩
  · exact (((hasDerivAt_id' (0 : ℝ)).mul_const (v i j)).const_add (c0 i j)).congr_deriv (one_mul _)
  · have : (fun i j => c0 i j + 0 * v i j) = c0 := by funext i j; ring
    simp only [this]
    exact hv
  · simp [c0]

end AMPE.ConservedFlow.Props
