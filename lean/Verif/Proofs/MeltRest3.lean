import Verif.Proofs.MeltRest
import Verif.Props.MeltFlow3

/-!
# Helpers for C151, 3D
-/

namespace AMPE.MeltFlow

open AMPE.Functions AMPE.Flux AMPE.PhaseRHS AMPE.PhaseRHS.Props AMPE.Thermal AMPE.Thermal.Props AMPE.MeltFlow.Props AMPE.Rest

/-- A number of cells modulo the period. -/
theorem wrap1 {N : ℕ} (hN : 0 < N) (lo i : ℤ) : ∃ a < N, ∃ z : ℤ, i = lo + (a : ℤ) + z * N := by
  have hN' : (0 : ℤ) < N := by exact_mod_cast hN
  have ei := Int.emod_add_mul_ediv (i - lo) N
  have si := Int.emod_lt_of_pos (i - lo) hN'
  obtain ⟨a, ha⟩ := Int.eq_ofNat_of_zero_le (Int.emod_nonneg (i - lo) hN'.ne')
  exact ⟨a, by omega, (i - lo) / N, by rw [← ha]; linarith⟩

/-- A function that repeats, repeats after any number of periods. -/
theorem period_many {N : ℕ} {f : ℤ → ℝ} (h : ∀ i, f (i + N) = f i) (z i : ℤ) : f (i + z * N) = f i := by
  have px : ∀ (n : ℕ) i, f (i + (n : ℤ) * N) = f i := by
    intro n
    induction n with
    | zero => intro i; simp
    | succ n ih => intro i; rw [show i + ((n + 1 : ℕ) : ℤ) * N = i + (n : ℤ) * N + N by push_cast; ring, h, ih]
  obtain ⟨n, rfl | rfl⟩ := Int.eq_nat_or_neg z
  · exact px n i
  · have := px n (i + -(n : ℤ) * N)
    rw [← this]; congr 1; ring

section
variable {N M K : ℕ} {lo0 lo1 lo2 : ℤ}

/-- Every cell of a periodic sample has its copy in the box. -/
theorem copy3 (hN : 0 < N) (hM : 0 < M) (hK : 0 < K) (lo0 lo1 lo2 i j k : ℤ) :
    ∃ a < N, ∃ b < M, ∃ c < K, ∀ f : Field3, Periodic3 N M K f → f i j k = f (lo0 + (a : ℤ)) (lo1 + (b : ℤ)) (lo2 + (c : ℤ)) := by
  obtain ⟨a, ha, x, hi⟩ := wrap1 hN lo0 i
  obtain ⟨b, hb, y, hj⟩ := wrap1 hM lo1 j
  obtain ⟨c, hc, z, hk⟩ := wrap1 hK lo2 k
  refine ⟨a, ha, b, hb, c, hc, fun f hp => ?_⟩
  conv_lhs => rw [hi, hj, hk]
  rw [period_many (f := fun i => f i (lo1 + b + y * M) (lo2 + c + z * K)) (fun i => hp.1 i _ _) x (lo0 + a),
    period_many (f := fun j => f (lo0 + a) j (lo2 + c + z * K)) (fun j => hp.2.1 _ j _) y (lo1 + b),
    period_many (f := fun k => f (lo0 + a) (lo1 + b) k) (fun k => hp.2.2 _ _ k) z (lo2 + c)]

theorem box_le_S3 {f : Field3} (h : ∀ i j k, 0 ≤ f i j k) {a b c : ℕ} (ha : a < N) (hb : b < M) (hc : c < K) :
    f (lo0 + (a : ℤ)) (lo1 + (b : ℤ)) (lo2 + (c : ℤ)) ≤ S3 N M K lo0 lo1 lo2 f := by
  unfold S3
  refine le_trans ?_ (Finset.single_le_sum (f := fun c => ∑ b ∈ Finset.range M, ∑ a ∈ Finset.range N,
      f (lo0 + (a : ℤ)) (lo1 + ((b : ℕ) : ℤ)) (lo2 + ((c : ℕ) : ℤ)))
    (fun c _ => Finset.sum_nonneg fun b _ => Finset.sum_nonneg fun a _ => h _ _ _) (Finset.mem_range.2 hc))
  refine le_trans ?_ (Finset.single_le_sum (f := fun b => ∑ a ∈ Finset.range N, f (lo0 + (a : ℤ)) (lo1 + ((b : ℕ) : ℤ)) (lo2 + (c : ℤ)))
    (fun b _ => Finset.sum_nonneg fun a _ => h _ _ _) (Finset.mem_range.2 hb))
  exact Finset.single_le_sum (f := fun a => f (lo0 + ((a : ℕ) : ℤ)) (lo1 + (b : ℤ)) (lo2 + (c : ℤ))) (fun a _ => h _ _ _)
    (Finset.mem_range.2 ha)

/-- One cell of a nonnegative periodic field is at most the sum. -/
theorem cell_le_S3 {f : Field3} (hN : 0 < N) (hM : 0 < M) (hK : 0 < K) (hp : Periodic3 N M K f) (h : ∀ i j k, 0 ≤ f i j k)
    (i j k : ℤ) : f i j k ≤ S3 N M K lo0 lo1 lo2 f := by
  obtain ⟨a, ha, b, hb, c, hc, e⟩ := copy3 hN hM hK lo0 lo1 lo2 i j k
  rw [e f hp]
  exact box_le_S3 h ha hb hc

theorem S3_tame {f : ℝ → Field3} (h : ∀ i j k, Tame fun t => f t i j k) : Tame fun t => S3 N M K lo0 lo1 lo2 (f t) :=
  Tame.sum _ fun c => Tame.sum _ fun b => Tame.sum _ fun a => h _ _ _

/-- The temperature term is at least the differences between neighbours. -/
theorem covar3_smooth_ge {κ : ℝ} (h0 : 0 ≤ κ) (dx dy dz : ℝ) (u : Field3) (hu : Periodic3 N M K u) :
    (1 - 12 * κ) * (1 / (dx * dx) * S3 N M K lo0 lo1 lo2 (fun i j k => (u (i + 1) j k - u i j k) * (u (i + 1) j k - u i j k))
      + (1 / (dy * dy) * S3 N M K lo0 lo1 lo2 (fun i j k => (u i (j + 1) k - u i j k) * (u i (j + 1) k - u i j k))
      + 1 / (dz * dz) * S3 N M K lo0 lo1 lo2 (fun i j k => (u i j (k + 1) - u i j k) * (u i j (k + 1) - u i j k)))) ≤
      covar3 N M K lo0 lo1 lo2 dx dy dz (smooth3 κ u) u := by
  have hx := smooth3_pos (lo0 := lo0) (lo1 := lo1) (lo2 := lo2) h0 _ (sub_periodic (xp_periodic hu) hu)
  have hy := smooth3_pos (lo0 := lo0) (lo1 := lo1) (lo2 := lo2) h0 _ (sub_periodic (yp_periodic hu) hu)
  have hz := smooth3_pos (lo0 := lo0) (lo1 := lo1) (lo2 := lo2) h0 _ (sub_periodic (zp_periodic hu) hu)
  have ax := mul_le_mul_of_nonneg_left hx (one_div_nonneg.2 (mul_self_nonneg dx))
  have ay := mul_le_mul_of_nonneg_left hy (one_div_nonneg.2 (mul_self_nonneg dy))
  have az := mul_le_mul_of_nonneg_left hz (one_div_nonneg.2 (mul_self_nonneg dz))
  have e : covar3 N M K lo0 lo1 lo2 dx dy dz (smooth3 κ u) u =
      1 / (dx * dx) * S3 N M K lo0 lo1 lo2 (fun i j k => (u (i + 1) j k - u i j k) * smooth3 κ (fun i j k => u (i + 1) j k - u i j k) i j k)
      + (1 / (dy * dy) * S3 N M K lo0 lo1 lo2 (fun i j k => (u i (j + 1) k - u i j k) * smooth3 κ (fun i j k => u i (j + 1) k - u i j k) i j k)
      + 1 / (dz * dz) * S3 N M K lo0 lo1 lo2 (fun i j k => (u i j (k + 1) - u i j k) * smooth3 κ (fun i j k => u i j (k + 1) - u i j k) i j k)) := by
    unfold covar3
    congr 1
    · congr 1
      refine S3_congr fun i j k => ?_
      unfold smooth3
      rw [show i + 1 - 1 = i - 1 + 1 by ring]
      ring
    · congr 1
      · congr 1
        refine S3_congr fun i j k => ?_
        unfold smooth3
        rw [show j + 1 - 1 = j - 1 + 1 by ring]
        ring
      · congr 1
        refine S3_congr fun i j k => ?_
        unfold smooth3
        rw [show k + 1 - 1 = k - 1 + 1 by ring]
        ring
  rw [e]
  linarith

end

/-- The well of a cell is at most the energy of the interface. -/
theorem interface_ge3 (eps scale dx dy dz : ℝ) (N M K : ℕ) (lo0 lo1 lo2 : ℤ) (u : Field3)
    (hu : Periodic3 N M K u) (e : ℝ)
    (h : interfaceEnergy3 eps scale dx dy dz (fun _ => 1) lo0 (lo0 + N - 1) lo1 (lo1 + M - 1) lo2 (lo2 + K - 1) u = some e) :
    S3 N M K lo0 lo1 lo2 (fun i j k => scale * (16 * u i j k * u i j k * (1 - u i j k) * (1 - u i j k))) ≤ e := by
  rw [interface_some3] at h
  rw [← Option.some.inj h]
  have parts := parts3 (lo0 := lo0) (lo1 := lo1) (lo2 := lo2) dx dy dz (-(0.5 * eps * eps)) u u hu hu
  have hc : 0 ≤ covar3 N M K lo0 lo1 lo2 dx dy dz u u := by
    unfold covar3
    have nn : ∀ x : ℝ, 0 ≤ 1 / (x * x) := fun x => one_div_nonneg.2 (mul_self_nonneg x)
    exact add_nonneg (mul_nonneg (nn _) (S3_nonneg fun i j k => mul_self_nonneg _))
      (add_nonneg (mul_nonneg (nn _) (S3_nonneg fun i j k => mul_self_nonneg _)) (mul_nonneg (nn _) (S3_nonneg fun i j k => mul_self_nonneg _)))
  have e1 : (S3 N M K lo0 lo1 lo2 fun i j k => (interfaceCell3 eps dx dy dz u i j k
        + (fun (_ _ _ : ℤ) x => scale * (16 * x * x * (1 - x) * (1 - x))) i j k (u i j k)) * 1) =
      0.5 * eps * eps * covar3 N M K lo0 lo1 lo2 dx dy dz u u
        + S3 N M K lo0 lo1 lo2 (fun i j k => scale * (16 * u i j k * u i j k * (1 - u i j k) * (1 - u i j k))) := by
    rw [show 0.5 * eps * eps * covar3 N M K lo0 lo1 lo2 dx dy dz u u = - -(0.5 * eps * eps) * covar3 N M K lo0 lo1 lo2 dx dy dz u u by ring,
      ← parts, ← S3_add]
    refine S3_congr fun i j k => ?_
    unfold interfaceCell3 laplacian3
    ring
  rw [e1]
  have : 0 ≤ 0.5 * eps * eps * covar3 N M K lo0 lo1 lo2 dx dy dz u u := mul_nonneg (by nlinarith [mul_self_nonneg eps]) hc
  linarith

end AMPE.MeltFlow
