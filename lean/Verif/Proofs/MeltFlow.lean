import Verif.Model.MeltFlow
import Verif.Props.PhaseFlow
import Verif.Props.HeatEquation

/-!
# Helpers for C108
-/

namespace AMPE.MeltFlow

open AMPE.Functions AMPE.Flux AMPE.PhaseRHS AMPE.PhaseRHS.Props AMPE.Thermal AMPE.Thermal.Props

/-- Sum over a 2D block. -/
noncomputable def S2 (N M : ℕ) (lo0 lo1 : ℤ) (f : Field2) : ℝ :=
  ∑ b ∈ Finset.range M, ∑ a ∈ Finset.range N, f (lo0 + (a : ℤ)) (lo1 + (b : ℤ))

section
variable {N M : ℕ} {lo0 lo1 : ℤ}

theorem S2_add (f g : Field2) : S2 N M lo0 lo1 (fun i j => f i j + g i j) = S2 N M lo0 lo1 f + S2 N M lo0 lo1 g := by
  unfold S2; simp only [Finset.sum_add_distrib]

theorem S2_sub (f g : Field2) : S2 N M lo0 lo1 (fun i j => f i j - g i j) = S2 N M lo0 lo1 f - S2 N M lo0 lo1 g := by
  unfold S2; simp only [Finset.sum_sub_distrib]

theorem S2_mul (r : ℝ) (f : Field2) : S2 N M lo0 lo1 (fun i j => r * f i j) = r * S2 N M lo0 lo1 f := by
  unfold S2; simp only [Finset.mul_sum]

theorem S2_congr {f g : Field2} (h : ∀ i j, f i j = g i j) : S2 N M lo0 lo1 f = S2 N M lo0 lo1 g := by
  unfold S2; simp only [h]

theorem S2_le {f g : Field2} (h : ∀ i j, f i j ≤ g i j) : S2 N M lo0 lo1 f ≤ S2 N M lo0 lo1 g :=
  Finset.sum_le_sum fun _ _ => Finset.sum_le_sum fun _ _ => h _ _

theorem S2_nonneg {f : Field2} (h : ∀ i j, 0 ≤ f i j) : 0 ≤ S2 N M lo0 lo1 f :=
  Finset.sum_nonneg fun _ _ => Finset.sum_nonneg fun _ _ => h _ _

theorem S2_deriv {f : ℝ → Field2} {f' : Field2} {t : ℝ} (h : ∀ i j, HasDerivAt (fun s => f s i j) (f' i j) t) :
    HasDerivAt (fun s => S2 N M lo0 lo1 (f s)) (S2 N M lo0 lo1 f') t :=
  HasDerivAt.fun_sum fun b _ => HasDerivAt.fun_sum fun a _ => h _ _

/-- A vanishing sum of nonnegative terms vanishes term by term; by periodicity in every cell. -/
theorem S2_zero {f : Field2} (hN : 0 < N) (hM : 0 < M) (hp : Periodic2 N M f) (h : ∀ i j, 0 ≤ f i j)
    (h0 : S2 N M lo0 lo1 f = 0) : ∀ i j, f i j = 0 := by
  have inside : ∀ a < N, ∀ b < M, f (lo0 + (a : ℤ)) (lo1 + (b : ℤ)) = 0 := by
    intro a ha b hb
    have h1 := (Finset.sum_eq_zero_iff_of_nonneg (fun b _ => Finset.sum_nonneg fun a _ => h _ _)).1 h0 b
      (Finset.mem_range.2 hb)
    exact (Finset.sum_eq_zero_iff_of_nonneg (fun a _ => h _ _)).1 h1 a (Finset.mem_range.2 ha)
  have px : ∀ (n : ℕ) i j, f (i + (n : ℤ) * N) j = f i j := by
    intro n
    induction n with
    | zero => intro i j; simp
    | succ n ih => intro i j; rw [show i + ((n + 1 : ℕ) : ℤ) * N = i + (n : ℤ) * N + N by push_cast; ring, hp.1, ih]
  have py : ∀ (n : ℕ) i j, f i (j + (n : ℤ) * M) = f i j := by
    intro n
    induction n with
    | zero => intro i j; simp
    | succ n ih => intro i j; rw [show j + ((n + 1 : ℕ) : ℤ) * M = j + (n : ℤ) * M + M by push_cast; ring, hp.2, ih]
  have pxz : ∀ (z i j : ℤ), f (i + z * N) j = f i j := by
    intro z i j
    obtain ⟨n, rfl | rfl⟩ := Int.eq_nat_or_neg z
    · exact px n i j
    · have := px n (i + -(n : ℤ) * N) j
      rw [← this]; congr 1; ring
  have pyz : ∀ (z i j : ℤ), f i (j + z * M) = f i j := by
    intro z i j
    obtain ⟨n, rfl | rfl⟩ := Int.eq_nat_or_neg z
    · exact py n i j
    · have := py n i (j + -(n : ℤ) * M)
      rw [← this]; congr 1; ring
  intro i j
  have hN' : (0 : ℤ) < N := by exact_mod_cast hN
  have hM' : (0 : ℤ) < M := by exact_mod_cast hM
  have ei := Int.emod_add_mul_ediv (i - lo0) N
  have ej := Int.emod_add_mul_ediv (j - lo1) M
  have ri := Int.emod_nonneg (i - lo0) hN'.ne'
  have rj := Int.emod_nonneg (j - lo1) hM'.ne'
  have si := Int.emod_lt_of_pos (i - lo0) hN'
  have sj := Int.emod_lt_of_pos (j - lo1) hM'
  obtain ⟨a, ha⟩ := Int.eq_ofNat_of_zero_le ri
  obtain ⟨b, hb⟩ := Int.eq_ofNat_of_zero_le rj
  have hi : i = lo0 + (a : ℤ) + (i - lo0) / N * N := by rw [← ha]; linarith
  have hj : j = lo1 + (b : ℤ) + (j - lo1) / M * M := by rw [← hb]; linarith
  rw [hi, hj, pxz, pyz]
  exact inside a (by omega) b (by omega)

theorem S2_xp {f : Field2} (hp : Periodic2 N M f) : S2 N M lo0 lo1 (fun i j => f (i + 1) j) = S2 N M lo0 lo1 f :=
  Finset.sum_congr rfl fun b _ => sum_shift1 N lo0 (fun i => f i (lo1 + (b : ℤ))) fun i => hp.1 i _

theorem S2_xm {f : Field2} (hp : Periodic2 N M f) : S2 N M lo0 lo1 (fun i j => f (i - 1) j) = S2 N M lo0 lo1 f := by
  have := S2_xp (N := N) (M := M) (lo0 := lo0) (lo1 := lo1) (f := fun i j => f (i - 1) j)
    ⟨fun i j => by beta_reduce; rw [show i + (N : ℤ) - 1 = i - 1 + N by ring, hp.1], fun i j => hp.2 _ _⟩
  simp only [add_sub_cancel_right] at this
  exact this.symm

theorem S2_yp {f : Field2} (hp : Periodic2 N M f) : S2 N M lo0 lo1 (fun i j => f i (j + 1)) = S2 N M lo0 lo1 f := by
  unfold S2
  rw [Finset.sum_comm]
  conv_rhs => rw [Finset.sum_comm]
  exact Finset.sum_congr rfl fun a _ => sum_shift1 M lo1 (fun j => f (lo0 + (a : ℤ)) j) fun j => hp.2 _ j

theorem S2_ym {f : Field2} (hp : Periodic2 N M f) : S2 N M lo0 lo1 (fun i j => f i (j - 1)) = S2 N M lo0 lo1 f := by
  have := S2_yp (N := N) (M := M) (lo0 := lo0) (lo1 := lo1) (f := fun i j => f i (j - 1))
    ⟨fun i j => hp.1 _ _, fun i j => by beta_reduce; rw [show j + (M : ℤ) - 1 = j - 1 + M by ring, hp.2]⟩
  simp only [add_sub_cancel_right] at this
  exact this.symm

/-- Weighted average of a cell and its neighbours. -/
noncomputable def smooth2 (κ : ℝ) (u : Field2) (i j : ℤ) : ℝ :=
  u i j + κ * (u (i - 1) j + u i (j - 1) + u (i + 1) j + u i (j + 1) - 4 * u i j)

theorem smooth2_periodic (κ : ℝ) {u : Field2} (hu : Periodic2 N M u) : Periodic2 N M (smooth2 κ u) := by
  refine ⟨fun i j => ?_, fun i j => ?_⟩ <;> unfold smooth2
  · rw [show i + (N : ℤ) - 1 = i - 1 + N by ring, show i + (N : ℤ) + 1 = i + 1 + N by ring]
    simp only [hu.1]
  · rw [show j + (M : ℤ) - 1 = j - 1 + M by ring, show j + (M : ℤ) + 1 = j + 1 + M by ring]
    simp only [hu.2]

/-- Products with shifted fields. -/
theorem S2_cross (u v : Field2) (hu : Periodic2 N M u) (hv : Periodic2 N M v) :
    S2 N M lo0 lo1 (fun i j => v i j * u (i + 1) j) = S2 N M lo0 lo1 (fun i j => u i j * v (i - 1) j) ∧
    S2 N M lo0 lo1 (fun i j => v i j * u i (j + 1)) = S2 N M lo0 lo1 (fun i j => u i j * v i (j - 1)) := by
  constructor
  · have h := S2_xp (N := N) (M := M) (lo0 := lo0) (lo1 := lo1) (f := fun i j => u i j * v (i - 1) j)
      ⟨fun i j => by beta_reduce; rw [show i + (N : ℤ) - 1 = i - 1 + N by ring, hu.1, hv.1], fun i j => by beta_reduce; rw [hu.2, hv.2]⟩
    rw [← h]
    exact S2_congr fun i j => by beta_reduce; rw [add_sub_cancel_right]; ring
  · have h := S2_yp (N := N) (M := M) (lo0 := lo0) (lo1 := lo1) (f := fun i j => u i j * v i (j - 1))
      ⟨fun i j => by beta_reduce; rw [hu.1, hv.1], fun i j => by beta_reduce; rw [show j + (M : ℤ) - 1 = j - 1 + M by ring, hu.2, hv.2]⟩
    rw [← h]
    exact S2_congr fun i j => by beta_reduce; rw [add_sub_cancel_right]; ring

theorem smooth2_symm (κ : ℝ) (u v : Field2) (hu : Periodic2 N M u) (hv : Periodic2 N M v) :
    S2 N M lo0 lo1 (fun i j => v i j * smooth2 κ u i j) = S2 N M lo0 lo1 (fun i j => u i j * smooth2 κ v i j) := by
  have e : ∀ p q : Field2, S2 N M lo0 lo1 (fun i j => p i j * smooth2 κ q i j) =
      (1 - 4 * κ) * S2 N M lo0 lo1 (fun i j => p i j * q i j) + (κ * S2 N M lo0 lo1 (fun i j => p i j * q (i - 1) j)
        + (κ * S2 N M lo0 lo1 (fun i j => p i j * q i (j - 1)) + (κ * S2 N M lo0 lo1 (fun i j => p i j * q (i + 1) j)
        + κ * S2 N M lo0 lo1 (fun i j => p i j * q i (j + 1))))) := by
    intro p q
    simp only [← S2_mul, ← S2_add]
    exact S2_congr fun i j => by unfold smooth2; ring
  obtain ⟨a1, a2⟩ := S2_cross (lo0 := lo0) (lo1 := lo1) u v hu hv
  obtain ⟨b1, b2⟩ := S2_cross (lo0 := lo0) (lo1 := lo1) v u hv hu
  have c : S2 N M lo0 lo1 (fun i j => v i j * u i j) = S2 N M lo0 lo1 (fun i j => u i j * v i j) :=
    S2_congr fun i j => mul_comm _ _
  rw [e, e, a1, a2, b1, b2, c]
  ring

/-- The average keeps at least the share `1 - 8κ` of the square of a field. -/
theorem smooth2_pos {κ : ℝ} (h0 : 0 ≤ κ) (g : Field2) (hg : Periodic2 N M g) :
    (1 - 8 * κ) * S2 N M lo0 lo1 (fun i j => g i j * g i j) ≤ S2 N M lo0 lo1 (fun i j => g i j * smooth2 κ g i j) := by
  have hq : Periodic2 N M (fun i j => g i j * g i j) := ⟨fun i j => by beta_reduce; rw [hg.1], fun i j => by beta_reduce; rw [hg.2]⟩
  have x1 := S2_xp (lo0 := lo0) (lo1 := lo1) hq
  have x2 := S2_xm (lo0 := lo0) (lo1 := lo1) hq
  have y1 := S2_yp (lo0 := lo0) (lo1 := lo1) hq
  have y2 := S2_ym (lo0 := lo0) (lo1 := lo1) hq
  have key : S2 N M lo0 lo1 (fun i j => (1 - 6 * κ) * (g i j * g i j) + (-(κ / 2) * (g (i + 1) j * g (i + 1) j)
      + (-(κ / 2) * (g (i - 1) j * g (i - 1) j) + (-(κ / 2) * (g i (j + 1) * g i (j + 1))
      + -(κ / 2) * (g i (j - 1) * g i (j - 1)))))) ≤ S2 N M lo0 lo1 (fun i j => g i j * smooth2 κ g i j) := by
    refine S2_le fun i j => ?_
    unfold smooth2
    have a := mul_nonneg h0 (sq_nonneg (g i j + g (i + 1) j))
    have b := mul_nonneg h0 (sq_nonneg (g i j + g (i - 1) j))
    have c := mul_nonneg h0 (sq_nonneg (g i j + g i (j + 1)))
    have d := mul_nonneg h0 (sq_nonneg (g i j + g i (j - 1)))
    nlinarith
  simp only [S2_add, S2_mul] at key
  rw [x1, x2, y1, y2] at key
  linarith

/-- Heat flow against the averaged temperature. -/
theorem covar_smooth (κ dx dy : ℝ) (u : Field2) : covar2 N M lo0 lo1 dx dy (smooth2 κ u) u =
    1 / (dx * dx) * S2 N M lo0 lo1 (fun i j => (u (i + 1) j - u i j) * smooth2 κ (fun i j => u (i + 1) j - u i j) i j)
      + 1 / (dy * dy) * S2 N M lo0 lo1 (fun i j => (u i (j + 1) - u i j) * smooth2 κ (fun i j => u i (j + 1) - u i j) i j) := by
  simp only [← S2_mul, ← S2_add]
  unfold covar2 S2
  refine Finset.sum_congr rfl fun b _ => Finset.sum_congr rfl fun a _ => ?_
  unfold smooth2
  simp only [sub_add_cancel, add_sub_cancel_right]
  ring

theorem diffX_periodic {u : Field2} (hu : Periodic2 N M u) : Periodic2 N M fun i j => u (i + 1) j - u i j :=
  ⟨fun i j => by beta_reduce; rw [show i + (N : ℤ) + 1 = i + 1 + N by ring, hu.1, hu.1], fun i j => by beta_reduce; rw [hu.2, hu.2]⟩

theorem diffY_periodic {u : Field2} (hu : Periodic2 N M u) : Periodic2 N M fun i j => u i (j + 1) - u i j :=
  ⟨fun i j => by beta_reduce; rw [hu.1, hu.1], fun i j => by beta_reduce; rw [show j + (M : ℤ) + 1 = j + 1 + M by ring, hu.2, hu.2]⟩

theorem covar_smooth_nonneg {κ : ℝ} (h0 : 0 ≤ κ) (h1 : κ ≤ 1 / 8) (dx dy : ℝ) (u : Field2) (hu : Periodic2 N M u) :
    0 ≤ covar2 N M lo0 lo1 dx dy (smooth2 κ u) u := by
  rw [covar_smooth]
  have hx := smooth2_pos (lo0 := lo0) (lo1 := lo1) h0 _ (diffX_periodic hu)
  have hy := smooth2_pos (lo0 := lo0) (lo1 := lo1) h0 _ (diffY_periodic hu)
  have px : 0 ≤ S2 N M lo0 lo1 fun i j => (u (i + 1) j - u i j) * (u (i + 1) j - u i j) := S2_nonneg fun i j => mul_self_nonneg _
  have py : 0 ≤ S2 N M lo0 lo1 fun i j => (u i (j + 1) - u i j) * (u i (j + 1) - u i j) := S2_nonneg fun i j => mul_self_nonneg _
  have k : 0 ≤ 1 - 8 * κ := by linarith
  have := mul_nonneg k px
  have := mul_nonneg k py
  exact add_nonneg (mul_nonneg (one_div_nonneg.2 (mul_self_nonneg _)) (by linarith))
    (mul_nonneg (one_div_nonneg.2 (mul_self_nonneg _)) (by linarith))

theorem covar_smooth_zero {κ : ℝ} (h0 : 0 ≤ κ) (h1 : κ < 1 / 8) {dx dy : ℝ} (hx0 : dx ≠ 0) (hy0 : dy ≠ 0) (hN : 0 < N)
    (hM : 0 < M) (u : Field2) (hu : Periodic2 N M u) (h : covar2 N M lo0 lo1 dx dy (smooth2 κ u) u = 0) :
    ∀ i j, u (i + 1) j = u i j ∧ u i (j + 1) = u i j := by
  rw [covar_smooth] at h
  have hx := smooth2_pos (lo0 := lo0) (lo1 := lo1) h0 _ (diffX_periodic hu)
  have hy := smooth2_pos (lo0 := lo0) (lo1 := lo1) h0 _ (diffY_periodic hu)
  have px : 0 ≤ S2 N M lo0 lo1 fun i j => (u (i + 1) j - u i j) * (u (i + 1) j - u i j) := S2_nonneg fun i j => mul_self_nonneg _
  have py : 0 ≤ S2 N M lo0 lo1 fun i j => (u i (j + 1) - u i j) * (u i (j + 1) - u i j) := S2_nonneg fun i j => mul_self_nonneg _
  have k : 0 < 1 - 8 * κ := by linarith
  have qx := mul_nonneg k.le px
  have qy := mul_nonneg k.le py
  have cx : 0 < 1 / (dx * dx) := one_div_pos.2 (mul_self_pos.2 hx0)
  have cy : 0 < 1 / (dy * dy) := one_div_pos.2 (mul_self_pos.2 hy0)
  have sx := mul_nonneg cx.le (le_trans qx hx)
  have sy := mul_nonneg cy.le (le_trans qy hy)
  have zx := (mul_eq_zero.1 (le_antisymm (by linarith) sx)).resolve_left cx.ne'
  have zy := (mul_eq_zero.1 (le_antisymm (by linarith) sy)).resolve_left cy.ne'
  have wx := (mul_eq_zero.1 (le_antisymm (by linarith) qx)).resolve_left k.ne'
  have wy := (mul_eq_zero.1 (le_antisymm (by linarith) qy)).resolve_left k.ne'
  have dpx := diffX_periodic hu
  have dpy := diffY_periodic hu
  have fx := S2_zero hN hM (f := fun i j => (u (i + 1) j - u i j) * (u (i + 1) j - u i j))
    ⟨fun i j => by beta_reduce; rw [show i + (N : ℤ) + 1 = i + 1 + N by ring, hu.1, hu.1], fun i j => by beta_reduce; rw [hu.2, hu.2]⟩
    (fun i j => mul_self_nonneg _) wx
  have fy := S2_zero hN hM (f := fun i j => (u i (j + 1) - u i j) * (u i (j + 1) - u i j))
    ⟨fun i j => by beta_reduce; rw [hu.1, hu.1], fun i j => by beta_reduce; rw [show j + (M : ℤ) + 1 = j + 1 + M by ring, hu.2, hu.2]⟩
    (fun i j => mul_self_nonneg _) wy
  exact fun i j => ⟨sub_eq_zero.1 (mul_self_eq_zero.1 (fx i j)), sub_eq_zero.1 (mul_self_eq_zero.1 (fy i j))⟩

end

end AMPE.MeltFlow
