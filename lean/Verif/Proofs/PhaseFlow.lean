import Verif.Model.PhaseRHS
import Verif.Props.Functions
import Verif.Props.Flux
import Verif.Props.QuatTransfer
import Mathlib.Analysis.Calculus.Deriv.Add
import Mathlib.Analysis.Calculus.Deriv.Mul
import Mathlib.Analysis.Calculus.Deriv.Pow
import Mathlib.Algebra.BigOperators.Ring.Finset
import Mathlib.Tactic.LinearCombination

/-! # Periodic sums and the derivative of the discrete energy -/

namespace AMPE.PhaseRHS

open AMPE.Functions AMPE.Flux AMPE.Flux.Props

/-- Sum over a periodic row. -/
theorem lap_self_adjoint (N : ℕ) (lo : ℤ) (u v : ℤ → ℝ) (hu : ∀ i, u (i + N) = u i) (hv : ∀ i, v (i + N) = v i) :
    ∑ a ∈ Finset.range N, (-u (lo + (a : ℤ) + 1) + 2 * u (lo + (a : ℤ)) - u (lo + (a : ℤ) - 1)) * v (lo + (a : ℤ)) =
    ∑ a ∈ Finset.range N, (-v (lo + (a : ℤ) + 1) + 2 * v (lo + (a : ℤ)) - v (lo + (a : ℤ) - 1)) * u (lo + (a : ℤ)) := by
  rw [← sub_eq_zero, ← Finset.sum_sub_distrib]
  have h := telescope (fun x => v x * u (x - 1) - u x * v (x - 1)) lo N
  rw [← Finset.sum_congr rfl (fun a _ => ?_), h]
  rotate_left
  · have e : lo + (a : ℤ) + 1 - 1 = lo + (a : ℤ) := by ring
    simp only [e]
    ring
  · have e : lo + (N : ℤ) - 1 = lo - 1 + N := by ring
    simp only [e, hu, hv, sub_self]

theorem accumulate_some {ι : Type} (cell : ι → Option ℝ) (f weight : ι → ℝ) (h : ∀ c, cell c = some (f c)) (l : List ι) :
    accumulate cell weight l = some ((l.map fun c => f c * weight c).sum) := by
  unfold accumulate
  have : ∀ (l : List ι) (s : ℝ), l.foldlM (fun acc c => (cell c).map fun e => acc + e * weight c) s =
      some (s + (l.map fun c => f c * weight c).sum) := by
    intro l
    induction l with
    | nil => intro s; simp
    | cons c l ih =>
      intro s
      rw [List.foldlM_cons, h c]
      simp only [Option.map_some, Option.bind_eq_bind, Option.bind_some, ih, List.map_cons, List.sum_cons]
      congr 1; ring
  rw [this, zero_add]

theorem loop2_sum (f : ℤ × ℤ → ℝ) (lo0 lo1 : ℤ) (N M : ℕ) :
    ((loop2 lo0 (lo0 + N - 1) lo1 (lo1 + M - 1)).map f).sum =
      ∑ b ∈ Finset.range M, ∑ a ∈ Finset.range N, f (lo0 + (a : ℤ), lo1 + (b : ℤ)) := by
  unfold loop2
  have e0 : (lo0 + N - 1 - lo0 + 1).toNat = N := by omega
  have e1 : (lo1 + M - 1 - lo1 + 1).toNat = M := by omega
  rw [e0, e1, List.map_flatMap, QuatTransfer.Props.flatMap_sum, QuatTransfer.Props.list_range_sum]
  refine Finset.sum_congr rfl fun b _ => ?_
  rw [List.map_map, QuatTransfer.Props.list_range_sum]
  rfl

theorem loop3_sum (f : ℤ × ℤ × ℤ → ℝ) (lo0 lo1 lo2 : ℤ) (N M K : ℕ) :
    ((loop3 lo0 (lo0 + N - 1) lo1 (lo1 + M - 1) lo2 (lo2 + K - 1)).map f).sum =
      ∑ c ∈ Finset.range K, ∑ b ∈ Finset.range M, ∑ a ∈ Finset.range N,
        f (lo0 + (a : ℤ), lo1 + (b : ℤ), lo2 + (c : ℤ)) := by
  unfold loop3
  have e2 : (lo2 + K - 1 - lo2 + 1).toNat = K := by omega
  rw [e2, List.map_flatMap, QuatTransfer.Props.flatMap_sum, QuatTransfer.Props.list_range_sum]
  refine Finset.sum_congr rfl fun c _ => ?_
  rw [List.map_map, loop2_sum]
  rfl

/-- Specification: the field repeats with period `N` cells in direction 0 and `M` in direction 1. -/
def Periodic2 (N M : ℕ) (u : Field2) : Prop := (∀ i j, u (i + N) j = u i j) ∧ ∀ i j, u i (j + M) = u i j

/-- Specification: the field repeats with period `N`, `M`, `K` cells. -/
def Periodic3 (N M K : ℕ) (u : Field3) : Prop :=
  (∀ i j k, u (i + N) j k = u i j k) ∧ (∀ i j k, u i (j + M) k = u i j k) ∧ ∀ i j k, u i j (k + K) = u i j k

theorem Periodic2.deriv {N M : ℕ} {phi : ℝ → Field2} {v : Field2} {t : ℝ} (h : ∀ s, Periodic2 N M (phi s))
    (hv : ∀ i j, HasDerivAt (fun s => phi s i j) (v i j) t) : Periodic2 N M v := by
  refine ⟨fun i j => (hv (i + N) j).unique ?_, fun i j => (hv i (j + M)).unique ?_⟩
  · exact (hv i j).congr_of_eventuallyEq (Filter.Eventually.of_forall fun s => (h s).1 i j)
  · exact (hv i j).congr_of_eventuallyEq (Filter.Eventually.of_forall fun s => (h s).2 i j)

theorem Periodic3.deriv {N M K : ℕ} {phi : ℝ → Field3} {v : Field3} {t : ℝ} (h : ∀ s, Periodic3 N M K (phi s))
    (hv : ∀ i j k, HasDerivAt (fun s => phi s i j k) (v i j k) t) : Periodic3 N M K v := by
  refine ⟨fun i j k => (hv (i + N) j k).unique ?_, fun i j k => (hv i (j + M) k).unique ?_,
    fun i j k => (hv i j (k + K)).unique ?_⟩
  · exact (hv i j k).congr_of_eventuallyEq (Filter.Eventually.of_forall fun s => (h s).1 i j k)
  · exact (hv i j k).congr_of_eventuallyEq (Filter.Eventually.of_forall fun s => (h s).2.1 i j k)
  · exact (hv i j k).congr_of_eventuallyEq (Filter.Eventually.of_forall fun s => (h s).2.2 i j k)

theorem lapX_self_adjoint (N M : ℕ) (lo0 lo1 : ℤ) (u v : Field2) (hu : Periodic2 N M u) (hv : Periodic2 N M v) :
    ∑ b ∈ Finset.range M, ∑ a ∈ Finset.range N,
      (-u (lo0 + (a : ℤ) + 1) (lo1 + (b : ℤ)) + 2 * u (lo0 + (a : ℤ)) (lo1 + (b : ℤ))
        - u (lo0 + (a : ℤ) - 1) (lo1 + (b : ℤ))) * v (lo0 + (a : ℤ)) (lo1 + (b : ℤ)) =
    ∑ b ∈ Finset.range M, ∑ a ∈ Finset.range N,
      (-v (lo0 + (a : ℤ) + 1) (lo1 + (b : ℤ)) + 2 * v (lo0 + (a : ℤ)) (lo1 + (b : ℤ))
        - v (lo0 + (a : ℤ) - 1) (lo1 + (b : ℤ))) * u (lo0 + (a : ℤ)) (lo1 + (b : ℤ)) :=
  Finset.sum_congr rfl fun b _ => lap_self_adjoint N lo0 (fun i => u i (lo1 + (b : ℤ))) (fun i => v i (lo1 + (b : ℤ)))
    (fun i => hu.1 i _) (fun i => hv.1 i _)

theorem lapY_self_adjoint (N M : ℕ) (lo0 lo1 : ℤ) (u v : Field2) (hu : Periodic2 N M u) (hv : Periodic2 N M v) :
    ∑ b ∈ Finset.range M, ∑ a ∈ Finset.range N,
      (-u (lo0 + (a : ℤ)) (lo1 + (b : ℤ) + 1) + 2 * u (lo0 + (a : ℤ)) (lo1 + (b : ℤ))
        - u (lo0 + (a : ℤ)) (lo1 + (b : ℤ) - 1)) * v (lo0 + (a : ℤ)) (lo1 + (b : ℤ)) =
    ∑ b ∈ Finset.range M, ∑ a ∈ Finset.range N,
      (-v (lo0 + (a : ℤ)) (lo1 + (b : ℤ) + 1) + 2 * v (lo0 + (a : ℤ)) (lo1 + (b : ℤ))
        - v (lo0 + (a : ℤ)) (lo1 + (b : ℤ) - 1)) * u (lo0 + (a : ℤ)) (lo1 + (b : ℤ)) := by
  rw [Finset.sum_comm]
  conv_rhs => rw [Finset.sum_comm]
  exact Finset.sum_congr rfl fun a _ => lap_self_adjoint M lo1 (fun j => u (lo0 + (a : ℤ)) j)
    (fun j => v (lo0 + (a : ℤ)) j) (fun j => hu.2 _ j) (fun j => hv.2 _ j)

/-- The derivative of (interface + any local density) along any periodic curve. -/
theorem energy_deriv2 (N M : ℕ) (lo0 lo1 : ℤ) (eps dx dy w : ℝ) (phi : ℝ → Field2) (v : Field2) (t : ℝ)
    (hper : ∀ s, Periodic2 N M (phi s)) (hv : ∀ i j, HasDerivAt (fun s => phi s i j) (v i j) t)
    (F : ℤ → ℤ → ℝ → ℝ) (F' : Field2) (hF : ∀ i j, HasDerivAt (F i j) (F' i j) (phi t i j)) :
    HasDerivAt (fun s => ∑ b ∈ Finset.range M, ∑ a ∈ Finset.range N,
        (interfaceCell eps dx dy (phi s) (lo0 + (a : ℤ)) (lo1 + (b : ℤ))
          + F (lo0 + (a : ℤ)) (lo1 + (b : ℤ)) (phi s (lo0 + (a : ℤ)) (lo1 + (b : ℤ)))) * w)
      (∑ b ∈ Finset.range M, ∑ a ∈ Finset.range N,
        (-div2 dx dy (gradFluxX eps dx (phi t)) (gradFluxY eps dy (phi t)) (lo0 + (a : ℤ)) (lo1 + (b : ℤ))
          + F' (lo0 + (a : ℤ)) (lo1 + (b : ℤ))) * v (lo0 + (a : ℤ)) (lo1 + (b : ℤ)) * w) t := by
  have hvp := Periodic2.deriv hper hv
  have cell : ∀ i j, HasDerivAt (fun s => (interfaceCell eps dx dy (phi s) i j + F i j (phi s i j)) * w)
      ((0.5 * eps * eps * ((1 / dx ^ 2 * (-v (i + 1) j + 2 * v i j - v (i - 1) j)
        + 1 / dy ^ 2 * (-v i (j + 1) + 2 * v i j - v i (j - 1))) * phi t i j
        + (1 / dx ^ 2 * (-phi t (i + 1) j + 2 * phi t i j - phi t (i - 1) j)
        + 1 / dy ^ 2 * (-phi t i (j + 1) + 2 * phi t i j - phi t i (j - 1))) * v i j)
        + F' i j * v i j) * w) t := by
    intro i j
    have hx := ((((hv (i + 1) j).neg).add ((hv i j).const_mul 2)).sub (hv (i - 1) j)).const_mul (1 / dx ^ 2)
    have hy := ((((hv i (j + 1)).neg).add ((hv i j).const_mul 2)).sub (hv i (j - 1))).const_mul (1 / dy ^ 2)
    have hq := (((hx.add hy).const_mul (0.5 * eps * eps)).mul (hv i j))
    have hl : HasDerivAt (fun s => F i j (phi s i j)) (F' i j * v i j) t := (hF i j).comp t (hv i j)
    refine ((hq.add hl).mul_const w).congr_deriv ?_
    simp only [Pi.add_apply, Pi.sub_apply, Pi.neg_apply]
    ring
  have hs := HasDerivAt.fun_sum (u := Finset.range M) fun b _ => HasDerivAt.fun_sum (u := Finset.range N)
    fun a _ => cell (lo0 + (a : ℤ)) (lo1 + (b : ℤ))
  refine hs.congr_deriv ?_
  have hX := lapX_self_adjoint N M lo0 lo1 (phi t) v (hper t) hvp
  have hY := lapY_self_adjoint N M lo0 lo1 (phi t) v (hper t) hvp
  set A := ∑ b ∈ Finset.range M, ∑ a ∈ Finset.range N,
      (-phi t (lo0 + (a : ℤ) + 1) (lo1 + (b : ℤ)) + 2 * phi t (lo0 + (a : ℤ)) (lo1 + (b : ℤ))
        - phi t (lo0 + (a : ℤ) - 1) (lo1 + (b : ℤ))) * v (lo0 + (a : ℤ)) (lo1 + (b : ℤ)) with hA
  set B := ∑ b ∈ Finset.range M, ∑ a ∈ Finset.range N,
      (-phi t (lo0 + (a : ℤ)) (lo1 + (b : ℤ) + 1) + 2 * phi t (lo0 + (a : ℤ)) (lo1 + (b : ℤ))
        - phi t (lo0 + (a : ℤ)) (lo1 + (b : ℤ) - 1)) * v (lo0 + (a : ℤ)) (lo1 + (b : ℤ)) with hB
  set A' := ∑ b ∈ Finset.range M, ∑ a ∈ Finset.range N,
      (-v (lo0 + (a : ℤ) + 1) (lo1 + (b : ℤ)) + 2 * v (lo0 + (a : ℤ)) (lo1 + (b : ℤ))
        - v (lo0 + (a : ℤ) - 1) (lo1 + (b : ℤ))) * phi t (lo0 + (a : ℤ)) (lo1 + (b : ℤ)) with hA'
  set B' := ∑ b ∈ Finset.range M, ∑ a ∈ Finset.range N,
      (-v (lo0 + (a : ℤ)) (lo1 + (b : ℤ) + 1) + 2 * v (lo0 + (a : ℤ)) (lo1 + (b : ℤ))
        - v (lo0 + (a : ℤ)) (lo1 + (b : ℤ) - 1)) * phi t (lo0 + (a : ℤ)) (lo1 + (b : ℤ)) with hB'
  set C := ∑ b ∈ Finset.range M, ∑ a ∈ Finset.range N,
      F' (lo0 + (a : ℤ)) (lo1 + (b : ℤ)) * v (lo0 + (a : ℤ)) (lo1 + (b : ℤ)) with hC
  have l1 : (∑ b ∈ Finset.range M, ∑ a ∈ Finset.range N,
      (0.5 * eps * eps * ((1 / dx ^ 2 * (-v (lo0 + (a : ℤ) + 1) (lo1 + (b : ℤ)) + 2 * v (lo0 + (a : ℤ)) (lo1 + (b : ℤ)) - v (lo0 + (a : ℤ) - 1) (lo1 + (b : ℤ)))
        + 1 / dy ^ 2 * (-v (lo0 + (a : ℤ)) (lo1 + (b : ℤ) + 1) + 2 * v (lo0 + (a : ℤ)) (lo1 + (b : ℤ)) - v (lo0 + (a : ℤ)) (lo1 + (b : ℤ) - 1))) * phi t (lo0 + (a : ℤ)) (lo1 + (b : ℤ))
        + (1 / dx ^ 2 * (-phi t (lo0 + (a : ℤ) + 1) (lo1 + (b : ℤ)) + 2 * phi t (lo0 + (a : ℤ)) (lo1 + (b : ℤ)) - phi t (lo0 + (a : ℤ) - 1) (lo1 + (b : ℤ)))
        + 1 / dy ^ 2 * (-phi t (lo0 + (a : ℤ)) (lo1 + (b : ℤ) + 1) + 2 * phi t (lo0 + (a : ℤ)) (lo1 + (b : ℤ)) - phi t (lo0 + (a : ℤ)) (lo1 + (b : ℤ) - 1))) * v (lo0 + (a : ℤ)) (lo1 + (b : ℤ)))
        + F' (lo0 + (a : ℤ)) (lo1 + (b : ℤ)) * v (lo0 + (a : ℤ)) (lo1 + (b : ℤ))) * w)
      = (0.5 * eps * eps * (1 / dx ^ 2 * A' + 1 / dy ^ 2 * B' + 1 / dx ^ 2 * A + 1 / dy ^ 2 * B) + C) * w := by
    simp only [hA, hB, hA', hB', hC, Finset.mul_sum, Finset.sum_mul, ← Finset.sum_add_distrib]
    exact Finset.sum_congr rfl fun b _ => Finset.sum_congr rfl fun a _ => by ring
  have l2 : (∑ b ∈ Finset.range M, ∑ a ∈ Finset.range N,
        (-div2 dx dy (gradFluxX eps dx (phi t)) (gradFluxY eps dy (phi t)) (lo0 + (a : ℤ)) (lo1 + (b : ℤ))
          + F' (lo0 + (a : ℤ)) (lo1 + (b : ℤ))) * v (lo0 + (a : ℤ)) (lo1 + (b : ℤ)) * w)
      = (eps * eps * (1 / dx ^ 2 * A + 1 / dy ^ 2 * B) + C) * w := by
    simp only [hA, hB, hC, Finset.mul_sum, Finset.sum_mul, ← Finset.sum_add_distrib]
    refine Finset.sum_congr rfl fun b _ => Finset.sum_congr rfl fun a _ => ?_
    unfold div2 gradFluxX gradFluxY
    simp only [add_sub_cancel_right]
    ring
  rw [l1, l2, ← hX, ← hY]
  ring

/-- Sum over a 3D block. -/
noncomputable def S3 (N M K : ℕ) (lo0 lo1 lo2 : ℤ) (f : Field3) : ℝ :=
  ∑ c ∈ Finset.range K, ∑ b ∈ Finset.range M, ∑ a ∈ Finset.range N, f (lo0 + (a : ℤ)) (lo1 + (b : ℤ)) (lo2 + (c : ℤ))

theorem S3_add (N M K : ℕ) (lo0 lo1 lo2 : ℤ) (f g : Field3) :
    S3 N M K lo0 lo1 lo2 (fun i j k => f i j k + g i j k) = S3 N M K lo0 lo1 lo2 f + S3 N M K lo0 lo1 lo2 g := by
  unfold S3; simp only [Finset.sum_add_distrib]

theorem S3_mul (N M K : ℕ) (lo0 lo1 lo2 : ℤ) (r : ℝ) (f : Field3) :
    S3 N M K lo0 lo1 lo2 (fun i j k => r * f i j k) = r * S3 N M K lo0 lo1 lo2 f := by
  unfold S3; simp only [Finset.mul_sum]

theorem S3_congr {N M K : ℕ} {lo0 lo1 lo2 : ℤ} {f g : Field3} (h : ∀ i j k, f i j k = g i j k) :
    S3 N M K lo0 lo1 lo2 f = S3 N M K lo0 lo1 lo2 g := by
  unfold S3; simp only [h]

theorem S3_deriv {N M K : ℕ} {lo0 lo1 lo2 : ℤ} {f : ℝ → Field3} {f' : Field3} {t : ℝ}
    (h : ∀ i j k, HasDerivAt (fun s => f s i j k) (f' i j k) t) :
    HasDerivAt (fun s => S3 N M K lo0 lo1 lo2 (f s)) (S3 N M K lo0 lo1 lo2 f') t :=
  HasDerivAt.fun_sum fun c _ => HasDerivAt.fun_sum fun b _ => HasDerivAt.fun_sum fun a _ => h _ _ _

theorem lap3X_self_adjoint (N M K : ℕ) (lo0 lo1 lo2 : ℤ) (u v : Field3) (hu : Periodic3 N M K u) (hv : Periodic3 N M K v) :
    S3 N M K lo0 lo1 lo2 (fun i j k => (-u (i + 1) j k + 2 * u i j k - u (i - 1) j k) * v i j k) =
    S3 N M K lo0 lo1 lo2 (fun i j k => (-v (i + 1) j k + 2 * v i j k - v (i - 1) j k) * u i j k) :=
  Finset.sum_congr rfl fun c _ => Finset.sum_congr rfl fun b _ => lap_self_adjoint N lo0 (fun i => u i _ _)
    (fun i => v i _ _) (fun i => hu.1 i _ _) (fun i => hv.1 i _ _)

theorem lap3Y_self_adjoint (N M K : ℕ) (lo0 lo1 lo2 : ℤ) (u v : Field3) (hu : Periodic3 N M K u) (hv : Periodic3 N M K v) :
    S3 N M K lo0 lo1 lo2 (fun i j k => (-u i (j + 1) k + 2 * u i j k - u i (j - 1) k) * v i j k) =
    S3 N M K lo0 lo1 lo2 (fun i j k => (-v i (j + 1) k + 2 * v i j k - v i (j - 1) k) * u i j k) := by
  unfold S3
  refine Finset.sum_congr rfl fun c _ => ?_
  rw [Finset.sum_comm]
  conv_rhs => rw [Finset.sum_comm]
  exact Finset.sum_congr rfl fun a _ => lap_self_adjoint M lo1 (fun j => u _ j _)
    (fun j => v _ j _) (fun j => hu.2.1 _ j _) (fun j => hv.2.1 _ j _)

theorem lap3Z_self_adjoint (N M K : ℕ) (lo0 lo1 lo2 : ℤ) (u v : Field3) (hu : Periodic3 N M K u) (hv : Periodic3 N M K v) :
    S3 N M K lo0 lo1 lo2 (fun i j k => (-u i j (k + 1) + 2 * u i j k - u i j (k - 1)) * v i j k) =
    S3 N M K lo0 lo1 lo2 (fun i j k => (-v i j (k + 1) + 2 * v i j k - v i j (k - 1)) * u i j k) := by
  unfold S3
  rw [Finset.sum_comm]
  conv_rhs => rw [Finset.sum_comm]
  refine Finset.sum_congr rfl fun b _ => ?_
  rw [Finset.sum_comm]
  conv_rhs => rw [Finset.sum_comm]
  exact Finset.sum_congr rfl fun a _ => lap_self_adjoint K lo2 (fun k => u _ _ k)
    (fun k => v _ _ k) (fun k => hu.2.2 _ _ k) (fun k => hv.2.2 _ _ k)

/-- The 3D version of `energy_deriv2`. -/
theorem energy_deriv3 (N M K : ℕ) (lo0 lo1 lo2 : ℤ) (eps dx dy dz w : ℝ) (phi : ℝ → Field3) (v : Field3) (t : ℝ)
    (hper : ∀ s, Periodic3 N M K (phi s)) (hv : ∀ i j k, HasDerivAt (fun s => phi s i j k) (v i j k) t)
    (F : ℤ → ℤ → ℤ → ℝ → ℝ) (F' : Field3) (hF : ∀ i j k, HasDerivAt (F i j k) (F' i j k) (phi t i j k)) :
    HasDerivAt (fun s => S3 N M K lo0 lo1 lo2 fun i j k =>
        (interfaceCell3 eps dx dy dz (phi s) i j k + F i j k (phi s i j k)) * w)
      (S3 N M K lo0 lo1 lo2 fun i j k =>
        (-div3 dx dy dz (gradFlux3X eps dx (phi t)) (gradFlux3Y eps dy (phi t)) (gradFlux3Z eps dz (phi t)) i j k
          + F' i j k) * v i j k * w) t := by
  have hvp := Periodic3.deriv hper hv
  have cell : ∀ i j k, HasDerivAt (fun s => (interfaceCell3 eps dx dy dz (phi s) i j k + F i j k (phi s i j k)) * w)
      ((0.5 * eps * eps * w * (1 / dx ^ 2)) * ((-v (i + 1) j k + 2 * v i j k - v (i - 1) j k) * phi t i j k)
        + ((0.5 * eps * eps * w * (1 / dy ^ 2)) * ((-v i (j + 1) k + 2 * v i j k - v i (j - 1) k) * phi t i j k)
        + ((0.5 * eps * eps * w * (1 / dz ^ 2)) * ((-v i j (k + 1) + 2 * v i j k - v i j (k - 1)) * phi t i j k)
        + ((0.5 * eps * eps * w * (1 / dx ^ 2)) * ((-phi t (i + 1) j k + 2 * phi t i j k - phi t (i - 1) j k) * v i j k)
        + ((0.5 * eps * eps * w * (1 / dy ^ 2)) * ((-phi t i (j + 1) k + 2 * phi t i j k - phi t i (j - 1) k) * v i j k)
        + ((0.5 * eps * eps * w * (1 / dz ^ 2)) * ((-phi t i j (k + 1) + 2 * phi t i j k - phi t i j (k - 1)) * v i j k)
        + w * (F' i j k * v i j k))))))) t := by
    intro i j k
    have hx := ((((hv (i + 1) j k).neg).add ((hv i j k).const_mul 2)).sub (hv (i - 1) j k)).const_mul (1 / dx ^ 2)
    have hy := ((((hv i (j + 1) k).neg).add ((hv i j k).const_mul 2)).sub (hv i (j - 1) k)).const_mul (1 / dy ^ 2)
    have hz := ((((hv i j (k + 1)).neg).add ((hv i j k).const_mul 2)).sub (hv i j (k - 1))).const_mul (1 / dz ^ 2)
    have hq := ((((hx.add hy).add hz).const_mul (0.5 * eps * eps)).mul (hv i j k))
    have hl : HasDerivAt (fun s => F i j k (phi s i j k)) (F' i j k * v i j k) t := (hF i j k).comp t (hv i j k)
    refine ((hq.add hl).mul_const w).congr_deriv ?_
    simp only [Pi.add_apply, Pi.sub_apply, Pi.neg_apply]
    ring
  refine (S3_deriv cell).congr_deriv ?_
  have hX := lap3X_self_adjoint N M K lo0 lo1 lo2 (phi t) v (hper t) hvp
  have hY := lap3Y_self_adjoint N M K lo0 lo1 lo2 (phi t) v (hper t) hvp
  have hZ := lap3Z_self_adjoint N M K lo0 lo1 lo2 (phi t) v (hper t) hvp
  simp only [S3_add, S3_mul]
  rw [← hX, ← hY, ← hZ]
  have l2 : (S3 N M K lo0 lo1 lo2 fun i j k =>
        (-div3 dx dy dz (gradFlux3X eps dx (phi t)) (gradFlux3Y eps dy (phi t)) (gradFlux3Z eps dz (phi t)) i j k
          + F' i j k) * v i j k * w) = S3 N M K lo0 lo1 lo2 (fun i j k =>
        (eps * eps * w * (1 / dx ^ 2)) * ((-phi t (i + 1) j k + 2 * phi t i j k - phi t (i - 1) j k) * v i j k)
        + ((eps * eps * w * (1 / dy ^ 2)) * ((-phi t i (j + 1) k + 2 * phi t i j k - phi t i (j - 1) k) * v i j k)
        + ((eps * eps * w * (1 / dz ^ 2)) * ((-phi t i j (k + 1) + 2 * phi t i j k - phi t i j (k - 1)) * v i j k)
        + w * (F' i j k * v i j k)))) := by
    refine S3_congr fun i j k => ?_
    unfold div3 gradFlux3X gradFlux3Y gradFlux3Z
    simp only [add_sub_cancel_right]
    ring
  rw [l2]
  simp only [S3_add, S3_mul]
  ring

end AMPE.PhaseRHS
