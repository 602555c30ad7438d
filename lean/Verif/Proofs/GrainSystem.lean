import Verif.Proofs.Global
import Verif.Props.GrainRest
import Mathlib.Data.ZMod.Basic

/-!
# A periodic grain structure as a finite system
-/

namespace AMPE.GrainSystem

open AMPE.Functions AMPE.Flux AMPE.PhaseRHS AMPE.PhaseRHS.Props AMPE.PhaseBounds AMPE.MultiBounds AMPE.GrainFlow AMPE.GrainFlow.Props
  AMPE.MeltFlow AMPE.Rest AMPE.GrainRest AMPE.GrainRest.Props AMPE.Existence

/-! ## 2D -/

section
variable {n N M : ℕ}

/-- The state that repeats what the cells of the sample hold. -/
def field2 (y : Fin (n + 1) × ZMod N × ZMod M → ℝ) : Fin (n + 1) → Field2 := fun p i j => y (p, (i : ZMod N), (j : ZMod M))

theorem field2_per (y : Fin (n + 1) × ZMod N × ZMod M → ℝ) (p : Fin (n + 1)) : Periodic2 N M (field2 y p) :=
  ⟨fun i j => by simp [field2], fun i j => by simp [field2]⟩

/-- A field that repeats only depends on the class of the indices. -/
theorem same1 {u : ℤ → ℝ} (h : ∀ i, u (i + N) = u i) {i i' : ℤ} (e : (i : ZMod N) = (i' : ZMod N)) : u i = u i' := by
  obtain ⟨z, hz⟩ := (ZMod.intCast_eq_intCast_iff_dvd_sub i i' N).1 e
  rw [show i' = i + z * N by rw [mul_comm]; omega, AMPE.MeltFlow.period_many h]

theorem same2 {u : Field2} (h : Periodic2 N M u) {i i' j j' : ℤ} (ei : (i : ZMod N) = (i' : ZMod N)) (ej : (j : ZMod M) = (j' : ZMod M)) :
    u i j = u i' j' := by
  rw [same1 (u := fun i => u i j) (fun i => h.1 i j) ei, same1 (u := fun j => u i' j) (fun j => h.2 i' j) ej]

variable (n) in
/-- The rates of the system. -/
noncomputable def rates2 (st : Stencil) (eps gamma m dx dy : ℝ) (N M : ℕ) (mob : Field2) (y : Fin (n + 1) × ZMod N × ZMod M → ℝ) :
    Fin (n + 1) × ZMod N × ZMod M → ℝ := fun q =>
  rateMulti2 n st .fixed eps gamma m dx dy mob (fun _ _ => .none) (field2 y) q.1 (q.2.1.val : ℤ) (q.2.2.val : ℤ)

theorem rates2_eq [NeZero N] [NeZero M] (st : Stencil) (eps gamma m dx dy : ℝ) {mob : Field2} (hp : Periodic2 N M mob)
    (y : Fin (n + 1) × ZMod N × ZMod M → ℝ) (p : Fin (n + 1)) (i j : ℤ) :
    rates2 n st eps gamma m dx dy N M mob y (p, (i : ZMod N), (j : ZMod M)) =
      rateMulti2 n st .fixed eps gamma m dx dy mob (fun _ _ => .none) (field2 y) p i j := by
  have ei : (((i : ZMod N).val : ℤ) : ZMod N) = (i : ZMod N) := by simp
  have ej : (((j : ZMod M).val : ℤ) : ZMod M) = (j : ZMod M) := by simp
  have em := same2 hp ei ej
  simp only [rates2, rateMulti2, frameTerm]
  rw [em]
  cases st <;>
    simp only [diffTerm2, div2, gradFluxX, gradFluxY, isoFluxX, isoFluxY, field2, Int.cast_add, Int.cast_sub, Int.cast_one, ei, ej]

theorem rates2_smooth [NeZero N] [NeZero M] (st : Stencil) (eps gamma m dx dy : ℝ) (mob : Field2) :
    LocallyLipschitz (rates2 n st eps gamma m dx dy N M mob) := by
  refine ContDiff.locallyLipschitz (𝕂 := ℝ) ?_
  refine contDiff_pi.2 fun q => ?_
  cases st <;>
    simp only [rates2, rateMulti2, cellRateM, multiWell, drive, frameTerm, diffTerm2, div2, gradFluxX, gradFluxY, isoFluxX, isoFluxY, field2,
      div_eq_mul_inv] <;> fun_prop

end

/-! ## 3D -/

section
variable {n N M K : ℕ}

/-- The state that repeats what the cells of the sample hold. -/
def field3 (y : Fin (n + 1) × ZMod N × ZMod M × ZMod K → ℝ) : Fin (n + 1) → Field3 := fun p i j k =>
  y (p, (i : ZMod N), (j : ZMod M), (k : ZMod K))

theorem field3_per (y : Fin (n + 1) × ZMod N × ZMod M × ZMod K → ℝ) (p : Fin (n + 1)) : Periodic3 N M K (field3 y p) :=
  ⟨fun i j k => by simp [field3], fun i j k => by simp [field3], fun i j k => by simp [field3]⟩

theorem same3 {u : Field3} (h : Periodic3 N M K u) {i i' j j' k k' : ℤ} (ei : (i : ZMod N) = (i' : ZMod N))
    (ej : (j : ZMod M) = (j' : ZMod M)) (ek : (k : ZMod K) = (k' : ZMod K)) : u i j k = u i' j' k' := by
  rw [same1 (u := fun i => u i j k) (fun i => h.1 i j k) ei, same1 (u := fun j => u i' j k) (fun j => h.2.1 i' j k) ej,
    same1 (u := fun k => u i' j' k) (fun k => h.2.2 i' j' k) ek]

variable (n) in
/-- The rates of the system. -/
noncomputable def rates3 (eps gamma m dx dy dz : ℝ) (N M K : ℕ) (mob : Field3) (y : Fin (n + 1) × ZMod N × ZMod M × ZMod K → ℝ) :
    Fin (n + 1) × ZMod N × ZMod M × ZMod K → ℝ := fun q =>
  rateMulti3 n .fixed eps gamma m dx dy dz mob (fun _ _ _ => .none) (field3 y) q.1 (q.2.1.val : ℤ) (q.2.2.1.val : ℤ) (q.2.2.2.val : ℤ)

theorem rates3_eq [NeZero N] [NeZero M] [NeZero K] (eps gamma m dx dy dz : ℝ) {mob : Field3} (hp : Periodic3 N M K mob)
    (y : Fin (n + 1) × ZMod N × ZMod M × ZMod K → ℝ) (p : Fin (n + 1)) (i j k : ℤ) :
    rates3 n eps gamma m dx dy dz N M K mob y (p, (i : ZMod N), (j : ZMod M), (k : ZMod K)) =
      rateMulti3 n .fixed eps gamma m dx dy dz mob (fun _ _ _ => .none) (field3 y) p i j k := by
  have ei : (((i : ZMod N).val : ℤ) : ZMod N) = (i : ZMod N) := by simp
  have ej : (((j : ZMod M).val : ℤ) : ZMod M) = (j : ZMod M) := by simp
  have ek : (((k : ZMod K).val : ℤ) : ZMod K) = (k : ZMod K) := by simp
  have em := same3 hp ei ej ek
  simp only [rates3, rateMulti3, frameTerm]
  rw [em]
  simp only [div3, gradFlux3X, gradFlux3Y, gradFlux3Z, field3, Int.cast_add, Int.cast_sub, Int.cast_one, ei, ej, ek]

theorem rates3_smooth [NeZero N] [NeZero M] [NeZero K] (eps gamma m dx dy dz : ℝ) (mob : Field3) :
    LocallyLipschitz (rates3 n eps gamma m dx dy dz N M K mob) := by
  refine ContDiff.locallyLipschitz (𝕂 := ℝ) ?_
  refine contDiff_pi.2 fun q => ?_
  simp only [rates3, rateMulti3, cellRateM, multiWell, drive, frameTerm, div3, gradFlux3X, gradFlux3Y, gradFlux3Z, field3, div_eq_mul_inv]
  fun_prop

end

end AMPE.GrainSystem
