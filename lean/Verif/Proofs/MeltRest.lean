import Verif.Proofs.Rest
import Verif.Props.MeltFlow

/-!
# Helpers for C151, 2D
-/

namespace AMPE.MeltFlow

open AMPE.Functions AMPE.Flux AMPE.PhaseRHS AMPE.PhaseRHS.Props AMPE.Thermal AMPE.Thermal.Props AMPE.MeltFlow.Props AMPE.Rest

section
variable {N M : ℕ} {lo0 lo1 : ℤ}

/-- Every cell of a periodic sample has its copy in the box. -/
theorem copy2 (hN : 0 < N) (hM : 0 < M) (lo0 lo1 i j : ℤ) :
    ∃ a < N, ∃ b < M, ∀ f : Field2, Periodic2 N M f → f i j = f (lo0 + (a : ℤ)) (lo1 + (b : ℤ)) := by
  have px : ∀ f : Field2, Periodic2 N M f → ∀ (n : ℕ) i j, f (i + (n : ℤ) * N) j = f i j := by
    intro f hp n
    induction n with
    | zero => intro i j; simp
    | succ n ih => intro i j; rw [show i + ((n + 1 : ℕ) : ℤ) * N = i + (n : ℤ) * N + N by push_cast; ring, hp.1, ih]
  have py : ∀ f : Field2, Periodic2 N M f → ∀ (n : ℕ) i j, f i (j + (n : ℤ) * M) = f i j := by
    intro f hp n
    induction n with
    | zero => intro i j; simp
    | succ n ih => intro i j; rw [show j + ((n + 1 : ℕ) : ℤ) * M = j + (n : ℤ) * M + M by push_cast; ring, hp.2, ih]
  have pxz : ∀ f : Field2, Periodic2 N M f → ∀ (z i j : ℤ), f (i + z * N) j = f i j := by
    intro f hp z i j
    obtain ⟨n, rfl | rfl⟩ := Int.eq_nat_or_neg z
    · exact px f hp n i j
    · have := px f hp n (i + -(n : ℤ) * N) j
      rw [← this]; congr 1; ring
  have pyz : ∀ f : Field2, Periodic2 N M f → ∀ (z i j : ℤ), f i (j + z * M) = f i j := by
    intro f hp z i j
    obtain ⟨n, rfl | rfl⟩ := Int.eq_nat_or_neg z
    · exact py f hp n i j
    · have := py f hp n i (j + -(n : ℤ) * M)
      rw [← this]; congr 1; ring
  have hN' : (0 : ℤ) < N := by exact_mod_cast hN
  have hM' : (0 : ℤ) < M := by exact_mod_cast hM
  have ei := Int.emod_add_mul_ediv (i - lo0) N
  have ej := Int.emod_add_mul_ediv (j - lo1) M
  have ri := Int.emod_nonneg (i - lo0) hN'.ne'
  have rj := Int.emod_nonneg (j - lo1) hM'.ne'
  have si := Int.emod_lt_of_pos (i - lo0) hN'
  have sj := Int.emod_lt_of_pos (j - lo1) hM'
  obtain ⟨a, ha⟩ := Int.eq_ofNat_of_zero_le ri
  obtain ⟨b, hb⟩ := Int.eq_ofNat_of_zero_le rj
  have hi : i = lo0 + (a : ℤ) + (i - lo0) / N * N := by rw [← ha]; linarith
  have hj : j = lo1 + (b : ℤ) + (j - lo1) / M * M := by rw [← hb]; linarith
  refine ⟨a, by omega, b, by omega, fun f hp => ?_⟩
  conv_lhs => rw [hi, hj, pxz f hp, pyz f hp]

/-- One cell of a nonnegative periodic field is at most the sum. -/
theorem cell_le_S2 {f : Field2} (hN : 0 < N) (hM : 0 < M) (hp : Periodic2 N M f) (h : ∀ i j, 0 ≤ f i j) (i j : ℤ) :
    f i j ≤ S2 N M lo0 lo1 f := by
  obtain ⟨a, ha, b, hb, e⟩ := copy2 hN hM lo0 lo1 i j
  rw [e f hp]
  unfold S2
  refine le_trans ?_ (Finset.single_le_sum (f := fun b => ∑ a ∈ Finset.range N, f (lo0 + (a : ℤ)) (lo1 + ((b : ℕ) : ℤ)))
    (fun b _ => Finset.sum_nonneg fun a _ => h _ _) (Finset.mem_range.2 hb))
  exact Finset.single_le_sum (f := fun a => f (lo0 + ((a : ℕ) : ℤ)) (lo1 + (b : ℤ))) (fun a _ => h _ _) (Finset.mem_range.2 ha)

theorem S2_tame {f : ℝ → Field2} (h : ∀ i j, Tame fun t => f t i j) : Tame fun t => S2 N M lo0 lo1 (f t) :=
  Tame.sum _ fun b => Tame.sum _ fun a => h _ _

/-- The temperature term is at least the differences between neighbours. -/
theorem covar_smooth_ge {κ : ℝ} (h0 : 0 ≤ κ) (dx dy : ℝ) (u : Field2) (hu : Periodic2 N M u) :
    (1 - 8 * κ) * (1 / (dx * dx) * S2 N M lo0 lo1 (fun i j => (u (i + 1) j - u i j) * (u (i + 1) j - u i j))
      + 1 / (dy * dy) * S2 N M lo0 lo1 (fun i j => (u i (j + 1) - u i j) * (u i (j + 1) - u i j))) ≤
      covar2 N M lo0 lo1 dx dy (smooth2 κ u) u := by
  rw [covar_smooth]
  have hx := smooth2_pos (lo0 := lo0) (lo1 := lo1) h0 _ (diffX_periodic hu)
  have hy := smooth2_pos (lo0 := lo0) (lo1 := lo1) h0 _ (diffY_periodic hu)
  have := mul_le_mul_of_nonneg_left hx (one_div_nonneg.2 (mul_self_nonneg dx))
  have := mul_le_mul_of_nonneg_left hy (one_div_nonneg.2 (mul_self_nonneg dy))
  linarith

end

/-- The well of a cell is at most the energy of the interface. -/
theorem interface_ge (eps scale dx dy : ℝ) (N M : ℕ) (lo0 lo1 : ℤ) (u : Field2)
    (hu : Periodic2 N M u) (e : ℝ)
    (h : interfaceEnergy2 eps scale dx dy (fun _ => 1) lo0 (lo0 + N - 1) lo1 (lo1 + M - 1) u = some e) :
    S2 N M lo0 lo1 (fun i j => scale * (16 * u i j * u i j * (1 - u i j) * (1 - u i j))) ≤ e := by
  rw [interface_some] at h
  rw [← Option.some.inj h]
  have parts := parts2 N M lo0 lo1 dx dy (-(0.5 * eps * eps)) u u hu hu
  have hc : 0 ≤ covar2 N M lo0 lo1 dx dy u u := by
    unfold covar2
    exact Finset.sum_nonneg fun b _ => Finset.sum_nonneg fun a _ => add_nonneg
      (div_nonneg (mul_self_nonneg _) (mul_self_nonneg _)) (div_nonneg (mul_self_nonneg _) (mul_self_nonneg _))
  have e1 : (∑ b ∈ Finset.range M, ∑ a ∈ Finset.range N, (interfaceCell eps dx dy u (lo0 + (a : ℤ)) (lo1 + (b : ℤ))
        + (fun (_ _ : ℤ) x => scale * (16 * x * x * (1 - x) * (1 - x))) (lo0 + (a : ℤ)) (lo1 + (b : ℤ))
          (u (lo0 + (a : ℤ)) (lo1 + (b : ℤ)))) * 1) =
      0.5 * eps * eps * covar2 N M lo0 lo1 dx dy u u
        + S2 N M lo0 lo1 (fun i j => scale * (16 * u i j * u i j * (1 - u i j) * (1 - u i j))) := by
    rw [show 0.5 * eps * eps * covar2 N M lo0 lo1 dx dy u u = - -(0.5 * eps * eps) * covar2 N M lo0 lo1 dx dy u u by ring, ← parts]
    unfold S2
    simp only [← Finset.sum_add_distrib]
    refine Finset.sum_congr rfl fun b _ => Finset.sum_congr rfl fun a _ => ?_
    unfold interfaceCell laplacian2
    ring
  rw [e1]
  have : 0 ≤ 0.5 * eps * eps * covar2 N M lo0 lo1 dx dy u u := mul_nonneg (by nlinarith [mul_self_nonneg eps]) hc
  linarith

/-- The double well keeps a phase bounded. -/
theorem well_bounds (x B : ℝ) (h : x * x * (1 - x) * (1 - x) ≤ B) : |x| ≤ |B| + 2 := by
  rcases le_or_gt |x| 2 with h2 | h2
  · linarith [abs_nonneg B]
  · have h1 : 1 ≤ (1 - x) * (1 - x) := by
      rcases abs_cases x with ⟨e, _⟩ | ⟨e, _⟩ <;> rw [e] at h2 <;> nlinarith
    have hx : x * x = |x| * |x| := (abs_mul_abs_self x).symm
    have h3 : |x| ≤ x * x := by rw [hx]; nlinarith
    have h4 : x * x ≤ x * x * ((1 - x) * (1 - x)) := le_mul_of_one_le_right (mul_self_nonneg x) h1
    have h5 : x * x * ((1 - x) * (1 - x)) ≤ B := by linarith
    linarith [le_abs_self B]

end AMPE.MeltFlow
