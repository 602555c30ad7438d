import Verif.Proofs.MeltFlow

/-!
# Helpers for C108 in 3D
-/

namespace AMPE.MeltFlow

open AMPE.Functions AMPE.Flux AMPE.PhaseRHS AMPE.PhaseRHS.Props AMPE.Thermal AMPE.Thermal.Props

section
variable {N M K : ℕ} {lo0 lo1 lo2 : ℤ}

theorem S3_sub (f g : Field3) :
    S3 N M K lo0 lo1 lo2 (fun i j k => f i j k - g i j k) = S3 N M K lo0 lo1 lo2 f - S3 N M K lo0 lo1 lo2 g := by
  unfold S3; simp only [Finset.sum_sub_distrib]

theorem S3_le {f g : Field3} (h : ∀ i j k, f i j k ≤ g i j k) : S3 N M K lo0 lo1 lo2 f ≤ S3 N M K lo0 lo1 lo2 g :=
  Finset.sum_le_sum fun _ _ => Finset.sum_le_sum fun _ _ => Finset.sum_le_sum fun _ _ => h _ _ _

theorem S3_nonneg {f : Field3} (h : ∀ i j k, 0 ≤ f i j k) : 0 ≤ S3 N M K lo0 lo1 lo2 f :=
  Finset.sum_nonneg fun _ _ => Finset.sum_nonneg fun _ _ => Finset.sum_nonneg fun _ _ => h _ _ _

theorem S3_xp {f : Field3} (hp : Periodic3 N M K f) :
    S3 N M K lo0 lo1 lo2 (fun i j k => f (i + 1) j k) = S3 N M K lo0 lo1 lo2 f :=
  Finset.sum_congr rfl fun c _ => Finset.sum_congr rfl fun b _ =>
    sum_shift1 N lo0 (fun i => f i (lo1 + (b : ℤ)) (lo2 + (c : ℤ))) fun i => hp.1 i _ _

theorem S3_yp {f : Field3} (hp : Periodic3 N M K f) :
    S3 N M K lo0 lo1 lo2 (fun i j k => f i (j + 1) k) = S3 N M K lo0 lo1 lo2 f := by
  unfold S3
  refine Finset.sum_congr rfl fun c _ => ?_
  rw [Finset.sum_comm]
  conv_rhs => rw [Finset.sum_comm]
  exact Finset.sum_congr rfl fun a _ => sum_shift1 M lo1 (fun j => f (lo0 + (a : ℤ)) j (lo2 + (c : ℤ))) fun j => hp.2.1 _ j _

theorem S3_zp {f : Field3} (hp : Periodic3 N M K f) :
    S3 N M K lo0 lo1 lo2 (fun i j k => f i j (k + 1)) = S3 N M K lo0 lo1 lo2 f := by
  unfold S3
  rw [Finset.sum_comm]
  conv_rhs => rw [Finset.sum_comm]
  refine Finset.sum_congr rfl fun b _ => ?_
  rw [Finset.sum_comm]
  conv_rhs => rw [Finset.sum_comm]
  exact Finset.sum_congr rfl fun a _ => sum_shift1 K lo2 (fun k => f (lo0 + (a : ℤ)) (lo1 + (b : ℤ)) k) fun k => hp.2.2 _ _ k

/-- A periodic field stays periodic under a shift. -/
theorem shift_periodic {f : Field3} (hp : Periodic3 N M K f) (x y z : ℤ) : Periodic3 N M K fun i j k => f (i + x) (j + y) (k + z) :=
  ⟨fun i j k => by beta_reduce; rw [show i + (N : ℤ) + x = i + x + N by ring, hp.1],
   fun i j k => by beta_reduce; rw [show j + (M : ℤ) + y = j + y + M by ring, hp.2.1],
   fun i j k => by beta_reduce; rw [show k + (K : ℤ) + z = k + z + K by ring, hp.2.2]⟩

theorem mul_periodic {f g : Field3} (hf : Periodic3 N M K f) (hg : Periodic3 N M K g) : Periodic3 N M K fun i j k => f i j k * g i j k :=
  ⟨fun i j k => by beta_reduce; rw [hf.1, hg.1], fun i j k => by beta_reduce; rw [hf.2.1, hg.2.1],
   fun i j k => by beta_reduce; rw [hf.2.2, hg.2.2]⟩

theorem sub_periodic {f g : Field3} (hf : Periodic3 N M K f) (hg : Periodic3 N M K g) : Periodic3 N M K fun i j k => f i j k - g i j k :=
  ⟨fun i j k => by beta_reduce; rw [hf.1, hg.1], fun i j k => by beta_reduce; rw [hf.2.1, hg.2.1],
   fun i j k => by beta_reduce; rw [hf.2.2, hg.2.2]⟩

theorem xm_periodic {f : Field3} (hp : Periodic3 N M K f) : Periodic3 N M K fun i j k => f (i - 1) j k := by
  simpa [sub_eq_add_neg] using shift_periodic hp (-1) 0 0
theorem ym_periodic {f : Field3} (hp : Periodic3 N M K f) : Periodic3 N M K fun i j k => f i (j - 1) k := by
  simpa [sub_eq_add_neg] using shift_periodic hp 0 (-1) 0
theorem zm_periodic {f : Field3} (hp : Periodic3 N M K f) : Periodic3 N M K fun i j k => f i j (k - 1) := by
  simpa [sub_eq_add_neg] using shift_periodic hp 0 0 (-1)
theorem xp_periodic {f : Field3} (hp : Periodic3 N M K f) : Periodic3 N M K fun i j k => f (i + 1) j k := by
  simpa using shift_periodic hp 1 0 0
theorem yp_periodic {f : Field3} (hp : Periodic3 N M K f) : Periodic3 N M K fun i j k => f i (j + 1) k := by
  simpa using shift_periodic hp 0 1 0
theorem zp_periodic {f : Field3} (hp : Periodic3 N M K f) : Periodic3 N M K fun i j k => f i j (k + 1) := by
  simpa using shift_periodic hp 0 0 1

/-- Products with shifted fields. -/
theorem S3_cross (u v : Field3) (hu : Periodic3 N M K u) (hv : Periodic3 N M K v) :
    S3 N M K lo0 lo1 lo2 (fun i j k => v i j k * u (i + 1) j k) = S3 N M K lo0 lo1 lo2 (fun i j k => u i j k * v (i - 1) j k) ∧
    S3 N M K lo0 lo1 lo2 (fun i j k => v i j k * u i (j + 1) k) = S3 N M K lo0 lo1 lo2 (fun i j k => u i j k * v i (j - 1) k) ∧
    S3 N M K lo0 lo1 lo2 (fun i j k => v i j k * u i j (k + 1)) = S3 N M K lo0 lo1 lo2 (fun i j k => u i j k * v i j (k - 1)) := by
  refine ⟨?_, ?_, ?_⟩
  · rw [← S3_xp (mul_periodic hu (xm_periodic hv))]
    exact S3_congr fun i j k => by rw [add_sub_cancel_right]; ring
  · rw [← S3_yp (mul_periodic hu (ym_periodic hv))]
    exact S3_congr fun i j k => by rw [add_sub_cancel_right]; ring
  · rw [← S3_zp (mul_periodic hu (zm_periodic hv))]
    exact S3_congr fun i j k => by rw [add_sub_cancel_right]; ring

/-- Squares of the neighbours. -/
theorem S3_squares (g : Field3) (hg : Periodic3 N M K g) :
    S3 N M K lo0 lo1 lo2 (fun i j k => g (i + 1) j k * g (i + 1) j k) = S3 N M K lo0 lo1 lo2 (fun i j k => g i j k * g i j k) ∧
    S3 N M K lo0 lo1 lo2 (fun i j k => g i (j + 1) k * g i (j + 1) k) = S3 N M K lo0 lo1 lo2 (fun i j k => g i j k * g i j k) ∧
    S3 N M K lo0 lo1 lo2 (fun i j k => g i j (k + 1) * g i j (k + 1)) = S3 N M K lo0 lo1 lo2 (fun i j k => g i j k * g i j k) := by
  have h := mul_periodic hg hg
  exact ⟨S3_xp (f := fun i j k => g i j k * g i j k) h, S3_yp (f := fun i j k => g i j k * g i j k) h,
    S3_zp (f := fun i j k => g i j k * g i j k) h⟩

/-- Weighted average of a cell and its six neighbours. -/
noncomputable def smooth3 (κ : ℝ) (u : Field3) (i j k : ℤ) : ℝ :=
  u i j k + κ * (u (i - 1) j k + u i (j - 1) k + u (i + 1) j k + u i (j + 1) k + u i j (k - 1) + u i j (k + 1) - 6 * u i j k)

theorem smooth3_periodic (κ : ℝ) {u : Field3} (hu : Periodic3 N M K u) : Periodic3 N M K (smooth3 κ u) := by
  refine ⟨fun i j k => ?_, fun i j k => ?_, fun i j k => ?_⟩ <;> unfold smooth3
  · rw [show i + (N : ℤ) - 1 = i - 1 + N by ring, show i + (N : ℤ) + 1 = i + 1 + N by ring]
    simp only [hu.1]
  · rw [show j + (M : ℤ) - 1 = j - 1 + M by ring, show j + (M : ℤ) + 1 = j + 1 + M by ring]
    simp only [hu.2.1]
  · rw [show k + (K : ℤ) - 1 = k - 1 + K by ring, show k + (K : ℤ) + 1 = k + 1 + K by ring]
    simp only [hu.2.2]

theorem smooth3_split (κ : ℝ) (p q : Field3) : S3 N M K lo0 lo1 lo2 (fun i j k => p i j k * smooth3 κ q i j k) =
    (1 - 6 * κ) * S3 N M K lo0 lo1 lo2 (fun i j k => p i j k * q i j k)
      + (κ * S3 N M K lo0 lo1 lo2 (fun i j k => p i j k * q (i - 1) j k)
      + (κ * S3 N M K lo0 lo1 lo2 (fun i j k => p i j k * q i (j - 1) k)
      + (κ * S3 N M K lo0 lo1 lo2 (fun i j k => p i j k * q (i + 1) j k)
      + (κ * S3 N M K lo0 lo1 lo2 (fun i j k => p i j k * q i (j + 1) k)
      + (κ * S3 N M K lo0 lo1 lo2 (fun i j k => p i j k * q i j (k - 1))
      + κ * S3 N M K lo0 lo1 lo2 (fun i j k => p i j k * q i j (k + 1))))))) := by
  simp only [← S3_mul, ← S3_add]
  exact S3_congr fun i j k => by unfold smooth3; ring

theorem smooth3_symm (κ : ℝ) (u v : Field3) (hu : Periodic3 N M K u) (hv : Periodic3 N M K v) :
    S3 N M K lo0 lo1 lo2 (fun i j k => v i j k * smooth3 κ u i j k) =
      S3 N M K lo0 lo1 lo2 (fun i j k => u i j k * smooth3 κ v i j k) := by
  obtain ⟨a1, a2, a3⟩ := S3_cross (lo0 := lo0) (lo1 := lo1) (lo2 := lo2) u v hu hv
  obtain ⟨b1, b2, b3⟩ := S3_cross (lo0 := lo0) (lo1 := lo1) (lo2 := lo2) v u hv hu
  have c : S3 N M K lo0 lo1 lo2 (fun i j k => v i j k * u i j k) = S3 N M K lo0 lo1 lo2 (fun i j k => u i j k * v i j k) :=
    S3_congr fun i j k => mul_comm _ _
  rw [smooth3_split, smooth3_split, a1, a2, a3, b1, b2, b3, c]
  ring

/-- The average keeps at least the share `1 - 12κ` of the square of a field. -/
theorem smooth3_pos {κ : ℝ} (h0 : 0 ≤ κ) (g : Field3) (hg : Periodic3 N M K g) :
    (1 - 12 * κ) * S3 N M K lo0 lo1 lo2 (fun i j k => g i j k * g i j k) ≤
      S3 N M K lo0 lo1 lo2 (fun i j k => g i j k * smooth3 κ g i j k) := by
  obtain ⟨a1, a2, a3⟩ := S3_cross (lo0 := lo0) (lo1 := lo1) (lo2 := lo2) g g hg hg
  obtain ⟨q1, q2, q3⟩ := S3_squares (lo0 := lo0) (lo1 := lo1) (lo2 := lo2) g hg
  have lower : ∀ p : Field3, S3 N M K lo0 lo1 lo2 (fun i j k => p i j k * p i j k) = S3 N M K lo0 lo1 lo2 (fun i j k => g i j k * g i j k) →
      -S3 N M K lo0 lo1 lo2 (fun i j k => g i j k * g i j k) ≤ S3 N M K lo0 lo1 lo2 (fun i j k => g i j k * p i j k) := by
    intro p hp
    have := S3_nonneg (N := N) (M := M) (K := K) (lo0 := lo0) (lo1 := lo1) (lo2 := lo2)
      (f := fun i j k => g i j k * g i j k + (2 * (g i j k * p i j k) + p i j k * p i j k))
      (fun i j k => by nlinarith [sq_nonneg (g i j k + p i j k)])
    rw [S3_add, S3_add, S3_mul, hp] at this
    linarith
  have l1 := lower (fun i j k => g (i + 1) j k) q1
  have l2 := lower (fun i j k => g i (j + 1) k) q2
  have l3 := lower (fun i j k => g i j (k + 1)) q3
  rw [smooth3_split, ← a1, ← a2, ← a3]
  nlinarith [mul_le_mul_of_nonneg_left l1 h0, mul_le_mul_of_nonneg_left l2 h0, mul_le_mul_of_nonneg_left l3 h0]

/-- How much two fields vary together between neighbouring cells. -/
noncomputable def covar3 (N M K : ℕ) (lo0 lo1 lo2 : ℤ) (dx dy dz : ℝ) (g u : Field3) : ℝ :=
  1 / (dx * dx) * S3 N M K lo0 lo1 lo2 (fun i j k => (g (i + 1) j k - g i j k) * (u (i + 1) j k - u i j k))
    + (1 / (dy * dy) * S3 N M K lo0 lo1 lo2 (fun i j k => (g i (j + 1) k - g i j k) * (u i (j + 1) k - u i j k))
    + 1 / (dz * dz) * S3 N M K lo0 lo1 lo2 (fun i j k => (g i j (k + 1) - g i j k) * (u i j (k + 1) - u i j k)))

theorem parts3 (dx dy dz D : ℝ) (g u : Field3) (hg : Periodic3 N M K g) (hu : Periodic3 N M K u) :
    S3 N M K lo0 lo1 lo2 (fun i j k => g i j k * laplacian3 dx dy dz D u i j k) = -D * covar3 N M K lo0 lo1 lo2 dx dy dz g u := by
  obtain ⟨a1, a2, a3⟩ := S3_cross (lo0 := lo0) (lo1 := lo1) (lo2 := lo2) g u hg hu
  have q1 := S3_xp (lo0 := lo0) (lo1 := lo1) (lo2 := lo2) (mul_periodic hg hu)
  have q2 := S3_yp (lo0 := lo0) (lo1 := lo1) (lo2 := lo2) (mul_periodic hg hu)
  have q3 := S3_zp (lo0 := lo0) (lo1 := lo1) (lo2 := lo2) (mul_periodic hg hu)
  have e : S3 N M K lo0 lo1 lo2 (fun i j k => g i j k * laplacian3 dx dy dz D u i j k) =
      D / (dx * dx) * S3 N M K lo0 lo1 lo2 (fun i j k => g i j k * u (i - 1) j k)
      + (D / (dx * dx) * S3 N M K lo0 lo1 lo2 (fun i j k => g i j k * u (i + 1) j k)
      + (D / (dy * dy) * S3 N M K lo0 lo1 lo2 (fun i j k => g i j k * u i (j - 1) k)
      + (D / (dy * dy) * S3 N M K lo0 lo1 lo2 (fun i j k => g i j k * u i (j + 1) k)
      + (D / (dz * dz) * S3 N M K lo0 lo1 lo2 (fun i j k => g i j k * u i j (k - 1))
      + (D / (dz * dz) * S3 N M K lo0 lo1 lo2 (fun i j k => g i j k * u i j (k + 1))
      + (-(2 * D) * (1 / (dx * dx) + 1 / (dy * dy) + 1 / (dz * dz))) * S3 N M K lo0 lo1 lo2 (fun i j k => g i j k * u i j k)))))) := by
    simp only [← S3_mul, ← S3_add]
    exact S3_congr fun i j k => by unfold laplacian3; ring
  have d1 : S3 N M K lo0 lo1 lo2 (fun i j k => (g (i + 1) j k - g i j k) * (u (i + 1) j k - u i j k)) =
      S3 N M K lo0 lo1 lo2 (fun i j k => g (i + 1) j k * u (i + 1) j k) + (S3 N M K lo0 lo1 lo2 (fun i j k => g i j k * u i j k)
      - (S3 N M K lo0 lo1 lo2 (fun i j k => u i j k * g (i + 1) j k) + S3 N M K lo0 lo1 lo2 (fun i j k => g i j k * u (i + 1) j k))) := by
    simp only [← S3_add, ← S3_sub]
    exact S3_congr fun i j k => by ring
  have d2 : S3 N M K lo0 lo1 lo2 (fun i j k => (g i (j + 1) k - g i j k) * (u i (j + 1) k - u i j k)) =
      S3 N M K lo0 lo1 lo2 (fun i j k => g i (j + 1) k * u i (j + 1) k) + (S3 N M K lo0 lo1 lo2 (fun i j k => g i j k * u i j k)
      - (S3 N M K lo0 lo1 lo2 (fun i j k => u i j k * g i (j + 1) k) + S3 N M K lo0 lo1 lo2 (fun i j k => g i j k * u i (j + 1) k))) := by
    simp only [← S3_add, ← S3_sub]
    exact S3_congr fun i j k => by ring
  have d3 : S3 N M K lo0 lo1 lo2 (fun i j k => (g i j (k + 1) - g i j k) * (u i j (k + 1) - u i j k)) =
      S3 N M K lo0 lo1 lo2 (fun i j k => g i j (k + 1) * u i j (k + 1)) + (S3 N M K lo0 lo1 lo2 (fun i j k => g i j k * u i j k)
      - (S3 N M K lo0 lo1 lo2 (fun i j k => u i j k * g i j (k + 1)) + S3 N M K lo0 lo1 lo2 (fun i j k => g i j k * u i j (k + 1)))) := by
    simp only [← S3_add, ← S3_sub]
    exact S3_congr fun i j k => by ring
  unfold covar3
  rw [e, d1, d2, d3, q1, q2, q3, a1, a2, a3]
  ring

theorem covar3_smooth_nonneg {κ : ℝ} (h0 : 0 ≤ κ) (h1 : κ ≤ 1 / 12) (dx dy dz : ℝ) (u : Field3) (hu : Periodic3 N M K u) :
    0 ≤ covar3 N M K lo0 lo1 lo2 dx dy dz (smooth3 κ u) u := by
  have one : ∀ g : Field3, Periodic3 N M K g → 0 ≤ S3 N M K lo0 lo1 lo2 (fun i j k => g i j k * smooth3 κ g i j k) := by
    intro g hg
    have := smooth3_pos (lo0 := lo0) (lo1 := lo1) (lo2 := lo2) h0 g hg
    have p : 0 ≤ S3 N M K lo0 lo1 lo2 fun i j k => g i j k * g i j k := S3_nonneg fun i j k => mul_self_nonneg _
    exact le_trans (mul_nonneg (by linarith) p) this
  have x := one _ (sub_periodic (xp_periodic hu) hu)
  have y := one _ (sub_periodic (yp_periodic hu) hu)
  have z := one _ (sub_periodic (zp_periodic hu) hu)
  unfold covar3
  have ex : S3 N M K lo0 lo1 lo2 (fun i j k => (smooth3 κ u (i + 1) j k - smooth3 κ u i j k) * (u (i + 1) j k - u i j k)) =
      S3 N M K lo0 lo1 lo2 (fun i j k => (u (i + 1) j k - u i j k) * smooth3 κ (fun i j k => u (i + 1) j k - u i j k) i j k) :=
    S3_congr fun i j k => by unfold smooth3; simp only [sub_add_cancel, add_sub_cancel_right]; ring
  have ey : S3 N M K lo0 lo1 lo2 (fun i j k => (smooth3 κ u i (j + 1) k - smooth3 κ u i j k) * (u i (j + 1) k - u i j k)) =
      S3 N M K lo0 lo1 lo2 (fun i j k => (u i (j + 1) k - u i j k) * smooth3 κ (fun i j k => u i (j + 1) k - u i j k) i j k) :=
    S3_congr fun i j k => by unfold smooth3; simp only [sub_add_cancel, add_sub_cancel_right]; ring
  have ez : S3 N M K lo0 lo1 lo2 (fun i j k => (smooth3 κ u i j (k + 1) - smooth3 κ u i j k) * (u i j (k + 1) - u i j k)) =
      S3 N M K lo0 lo1 lo2 (fun i j k => (u i j (k + 1) - u i j k) * smooth3 κ (fun i j k => u i j (k + 1) - u i j k) i j k) :=
    S3_congr fun i j k => by unfold smooth3; simp only [sub_add_cancel, add_sub_cancel_right]; ring
  rw [ex, ey, ez]
  exact add_nonneg (mul_nonneg (one_div_nonneg.2 (mul_self_nonneg _)) x) (add_nonneg
    (mul_nonneg (one_div_nonneg.2 (mul_self_nonneg _)) y) (mul_nonneg (one_div_nonneg.2 (mul_self_nonneg _)) z))

end

end AMPE.MeltFlow
