import Verif.Model.GrainFlow
import Verif.Props.MultiOrder
import Verif.Props.AlloyFlow
import Verif.Proofs.MeltFlow
import Verif.Proofs.MeltFlow3

/-!
# C139: grain structures described by order parameters lose energy
-/

namespace AMPE.GrainFlow.Props

open AMPE.Functions AMPE.Functions.Props AMPE.Flux AMPE.PhaseRHS AMPE.PhaseRHS.Props AMPE.PhaseBounds AMPE.MultiBounds AMPE.GrainFlow
open AMPE.MeltFlow
open Filter

/-! ## Specification -/

/-- Slopes between neighbours. -/
noncomputable def slopeX (dx : ℝ) (u : Field2) : Field2 := fun i j => (u i j - u (i - 1) j) / dx
/-- The same in the other direction. -/
noncomputable def slopeY (dy : ℝ) (u : Field2) : Field2 := fun i j => (u i j - u i (j - 1)) / dy

/-- Energy of the slopes of one order parameter: half the squared gradient; with the isotropic differences two thirds of it is taken on
the faces and one third on the averages of two neighbouring faces. -/
noncomputable def gradEnergy (st : Stencil) (eps dx dy : ℝ) (u : Field2) : Field2 := fun i j =>
  match st with
  | .simple => eps ^ 2 / 2 * (slopeX dx u i j ^ 2 + slopeY dy u i j ^ 2)
  | .isotropic => eps ^ 2 / 2 * (2 / 3 * (slopeX dx u i j ^ 2 + slopeY dy u i j ^ 2)
      + 1 / 3 * (((slopeX dx u i j + slopeX dx u i (j + 1)) / 2) ^ 2 + ((slopeY dy u i j + slopeY dy u (i + 1) j) / 2) ^ 2))

/-- The wells: the potential of Moelans et al. and what the implemented force adds to it (C35). -/
noncomputable def wells (n : ℕ) (gamma m : ℝ) (phi : Fin n → ℝ) : ℝ :=
  multiPotential n gamma m phi - m * gamma * ∑ k, (2 / 3 * phi k ^ 3 - 1 / 2 * phi k ^ 4)

/-- Energy of the phases, weighted with the squares of the order parameters; the last one is the liquid. -/
noncomputable def bulk (n : ℕ) (f : GrainForce) (phi : Fin (n + 1) → ℝ) : ℝ :=
  match f with
  | .none => 0
  | .two fl fa => interpEnergy (fun k => if k = Fin.last n then fl else fa) phi
  | .three nA dfl dfa dfb => interpEnergy (fun k => if k = Fin.last n then dfl else if k.val < nA then dfa else dfb) phi

/-- The energies of the phases make sense in a cell: some order parameter is not zero, phase A has not more than all solid ones. -/
def BulkOk (n : ℕ) (f : GrainForce) (phi : Fin (n + 1) → ℝ) : Prop :=
  match f with
  | .none => True
  | .two _ _ => ∑ k, phi k ^ 2 ≠ 0
  | .three nA _ _ _ => nA ≤ n ∧ ∑ k, phi k ^ 2 ≠ 0

/-- Energy of a grain structure in 2D. -/
noncomputable def grainEnergy2 (n : ℕ) (st : Stencil) (eps gamma m dx dy w : ℝ) (N M : ℕ) (lo0 lo1 : ℤ) (f : ℤ → ℤ → GrainForce)
    (phi : Fin (n + 1) → Field2) : ℝ :=
  S2 N M lo0 lo1 fun i j => w * ((∑ p, gradEnergy st eps dx dy (phi p) i j) + wells (n + 1) gamma m (fun p => phi p i j)
    + bulk n (f i j) fun p => phi p i j)

/-- Order parameters that follow the equations of the program at time `t`; nothing moves the frame. -/
structure Moves2 (n : ℕ) (st : Stencil) (eps gamma m dx dy : ℝ) (N M : ℕ) (mob : ℝ → Field2) (f : ℤ → ℤ → GrainForce)
    (phi : ℝ → Fin (n + 1) → Field2) (t : ℝ) : Prop where
  per : ∀ s p, Periodic2 N M (phi s p)
  ok : ∀ i j, BulkOk n (f i j) fun p => phi t p i j
  moves : ∀ p i j, HasDerivAt (fun s => phi s p i j) (rateMulti2 n st .fixed eps gamma m dx dy (mob t) f (phi t) p i j) t

/-- A run. -/
def Flow2 (n : ℕ) (st : Stencil) (eps gamma m dx dy : ℝ) (N M : ℕ) (mob : ℝ → Field2) (f : ℤ → ℤ → GrainForce)
    (phi : ℝ → Fin (n + 1) → Field2) : Prop := ∀ t, Moves2 n st eps gamma m dx dy N M mob f phi t

/-- What drives order parameter `p` in a cell: the rate is this times the mobility. -/
noncomputable def push2 (n : ℕ) (st : Stencil) (eps gamma m dx dy : ℝ) (f : ℤ → ℤ → GrainForce) (phi : Fin (n + 1) → Field2)
    (p : Fin (n + 1)) (i j : ℤ) : ℝ :=
  rateMulti2 n st .fixed eps gamma m dx dy (fun _ _ => 1) f phi p i j

/-- Slopes in 3D. -/
noncomputable def slope3 (h : ℝ) (d : Fin 3) (u : Field3) : Field3 := fun i j k =>
  (u i j k - match d with
    | 0 => u (i - 1) j k
    | 1 => u i (j - 1) k
    | 2 => u i j (k - 1)) / h

/-- Energy of a grain structure in 3D. -/
noncomputable def grainEnergy3 (n : ℕ) (eps gamma m dx dy dz w : ℝ) (N M K : ℕ) (lo0 lo1 lo2 : ℤ) (f : ℤ → ℤ → ℤ → GrainForce)
    (phi : Fin (n + 1) → Field3) : ℝ :=
  S3 N M K lo0 lo1 lo2 fun i j k => w * ((∑ p, eps ^ 2 / 2 * (slope3 dx 0 (phi p) i j k ^ 2 + slope3 dy 1 (phi p) i j k ^ 2
    + slope3 dz 2 (phi p) i j k ^ 2)) + wells (n + 1) gamma m (fun p => phi p i j k) + bulk n (f i j k) fun p => phi p i j k)

/-- Order parameters that follow the equations of the program in 3D at time `t`. -/
structure Moves3 (n : ℕ) (eps gamma m dx dy dz : ℝ) (N M K : ℕ) (mob : ℝ → Field3) (f : ℤ → ℤ → ℤ → GrainForce)
    (phi : ℝ → Fin (n + 1) → Field3) (t : ℝ) : Prop where
  per : ∀ s p, Periodic3 N M K (phi s p)
  ok : ∀ i j k, BulkOk n (f i j k) fun p => phi t p i j k
  moves : ∀ p i j k, HasDerivAt (fun s => phi s p i j k) (rateMulti3 n .fixed eps gamma m dx dy dz (mob t) f (phi t) p i j k) t

/-- A run in 3D. -/
def Flow3 (n : ℕ) (eps gamma m dx dy dz : ℝ) (N M K : ℕ) (mob : ℝ → Field3) (f : ℤ → ℤ → ℤ → GrainForce)
    (phi : ℝ → Fin (n + 1) → Field3) : Prop := ∀ t, Moves3 n eps gamma m dx dy dz N M K mob f phi t

/-- What drives order parameter `p` in a cell, 3D. -/
noncomputable def push3 (n : ℕ) (eps gamma m dx dy dz : ℝ) (f : ℤ → ℤ → ℤ → GrainForce) (phi : Fin (n + 1) → Field3)
    (p : Fin (n + 1)) (i j k : ℤ) : ℝ :=
  rateMulti3 n .fixed eps gamma m dx dy dz (fun _ _ _ => 1) f phi p i j k

/-! ## Lemmas -/

theorem wells_deriv (n : ℕ) (gamma m : ℝ) (phi : ℝ → Fin n → ℝ) (v : Fin n → ℝ) (t : ℝ) (hv : ∀ k, HasDerivAt (fun s => phi s k) (v k) t) :
    HasDerivAt (fun s => wells n gamma m (phi s)) (-∑ p, multiWell n gamma m (phi t) p * v p) t :=
  c35_actual_potential n gamma m phi v t hv

theorem bulk_deriv (n : ℕ) (f : GrainForce) (phi : ℝ → Fin (n + 1) → ℝ) (v : Fin (n + 1) → ℝ) (t : ℝ)
    (hv : ∀ k, HasDerivAt (fun s => phi s k) (v k) t) (h : BulkOk n f (phi t)) :
    HasDerivAt (fun s => bulk n f (phi s)) (-∑ p, drive n f (phi t) p * v p) t := by
  cases f with
  | none => simpa [bulk, drive] using hasDerivAt_const t (0 : ℝ)
  | two fl fa => exact c36_two_phase n fl fa phi v t hv h
  | three nA dfl dfa dfb => exact c36_three_phase n nA h.1 dfl dfa dfb phi v t hv h.2

section
variable {N M : ℕ} {lo0 lo1 : ℤ}

theorem slopeX_per {dx : ℝ} {u : Field2} (h : Periodic2 N M u) : Periodic2 N M (slopeX dx u) :=
  ⟨fun i j => by simp only [slopeX]; rw [h.1, show i + (N : ℤ) - 1 = i - 1 + N by ring, h.1], fun i j => by simp only [slopeX]; rw [h.2, h.2]⟩

theorem slopeY_per {dy : ℝ} {u : Field2} (h : Periodic2 N M u) : Periodic2 N M (slopeY dy u) :=
  ⟨fun i j => by simp only [slopeY]; rw [h.1, h.1], fun i j => by simp only [slopeY]; rw [h.2, show j + (M : ℤ) - 1 = j - 1 + M by ring, h.2]⟩

theorem per_mul {u v : Field2} (hu : Periodic2 N M u) (hv : Periodic2 N M v) : Periodic2 N M fun i j => u i j * v i j :=
  ⟨fun i j => by beta_reduce; rw [hu.1, hv.1], fun i j => by beta_reduce; rw [hu.2, hv.2]⟩

theorem per_north {u : Field2} (hu : Periodic2 N M u) : Periodic2 N M fun i j => u i (j + 1) :=
  ⟨fun i j => hu.1 _ _, fun i j => by beta_reduce; rw [show j + (M : ℤ) + 1 = j + 1 + M by ring, hu.2]⟩

theorem per_east {u : Field2} (hu : Periodic2 N M u) : Periodic2 N M fun i j => u (i + 1) j :=
  ⟨fun i j => by beta_reduce; rw [show i + (N : ℤ) + 1 = i + 1 + N by ring, hu.1], fun i j => hu.2 _ _⟩

theorem per_south {u : Field2} (hu : Periodic2 N M u) : Periodic2 N M fun i j => u i (j - 1) :=
  ⟨fun i j => hu.1 _ _, fun i j => by beta_reduce; rw [show j + (M : ℤ) - 1 = j - 1 + M by ring, hu.2]⟩

theorem per_west {u : Field2} (hu : Periodic2 N M u) : Periodic2 N M fun i j => u (i - 1) j :=
  ⟨fun i j => by beta_reduce; rw [show i + (N : ℤ) - 1 = i - 1 + N by ring, hu.1], fun i j => hu.2 _ _⟩

theorem per_map {u : Field2} (hu : Periodic2 N M u) (F : ℝ → ℝ) : Periodic2 N M fun i j => F (u i j) :=
  ⟨fun i j => congrArg F (hu.1 i j), fun i j => congrArg F (hu.2 i j)⟩

theorem per_map3 {u v x : Field2} (hu : Periodic2 N M u) (hv : Periodic2 N M v) (hx : Periodic2 N M x) (F : ℝ → ℝ → ℝ → ℝ) :
    Periodic2 N M fun i j => F (u i j) (v i j) (x i j) :=
  ⟨fun i j => by beta_reduce; rw [hu.1, hv.1, hx.1], fun i j => by beta_reduce; rw [hu.2, hv.2, hx.2]⟩

theorem gradFluxX_slope (eps dx : ℝ) (u : Field2) : gradFluxX eps dx u = fun i j => eps * eps * slopeX dx u i j := by
  funext i j; simp only [gradFluxX, slopeX]; ring

theorem gradFluxY_slope (eps dy : ℝ) (u : Field2) : gradFluxY eps dy u = fun i j => eps * eps * slopeY dy u i j := by
  funext i j; simp only [gradFluxY, slopeY]; ring

theorem isoFluxX_slope (eps dx : ℝ) (u : Field2) :
    isoFluxX eps dx u = fun i j => eps * eps / 12 * (slopeX dx u i (j - 1) + 10 * slopeX dx u i j + slopeX dx u i (j + 1)) := by
  funext i j; simp only [isoFluxX, slopeX]; ring

theorem isoFluxY_slope (eps dy : ℝ) (u : Field2) :
    isoFluxY eps dy u = fun i j => eps * eps / 12 * (slopeY dy u (i - 1) j + 10 * slopeY dy u i j + slopeY dy u (i + 1) j) := by
  funext i j; simp only [isoFluxY, slopeY]; ring

/-- Summation by parts for slopes. -/
theorem slope_parts (dx dy : ℝ) {f0 f1 v : Field2} (h0 : Periodic2 N M f0) (h1 : Periodic2 N M f1) (hv : Periodic2 N M v) :
    S2 N M lo0 lo1 (fun i j => f0 i j * slopeX dx v i j + f1 i j * slopeY dy v i j) =
      S2 N M lo0 lo1 (fun i j => -(div2 dx dy f0 f1 i j * v i j)) := by
  have a := S2_xp (lo0 := lo0) (lo1 := lo1) (per_mul h0 (per_west hv))
  have b := S2_yp (lo0 := lo0) (lo1 := lo1) (per_mul h1 (per_south hv))
  simp only [add_sub_cancel_right] at a b
  have e1 : S2 N M lo0 lo1 (fun i j => f0 i j * slopeX dx v i j + f1 i j * slopeY dy v i j) =
      S2 N M lo0 lo1 (fun i j => (1 / dx * f0 i j + 1 / dy * f1 i j) * v i j)
        - (1 / dx * S2 N M lo0 lo1 (fun i j => f0 i j * v (i - 1) j) + 1 / dy * S2 N M lo0 lo1 (fun i j => f1 i j * v i (j - 1))) := by
    rw [← S2_mul, ← S2_mul, ← S2_add, ← S2_sub]
    exact S2_congr fun i j => by simp only [slopeX, slopeY]; ring
  rw [e1, ← a, ← b, ← S2_mul, ← S2_mul, ← S2_add, ← S2_sub]
  exact S2_congr fun i j => by simp only [div2]; ring

theorem avg_north {a b : Field2} (ha : Periodic2 N M a) (hb : Periodic2 N M b) :
    S2 N M lo0 lo1 (fun i j => (a i j + a i (j + 1)) * (b i j + b i (j + 1))) =
      S2 N M lo0 lo1 (fun i j => (a i (j - 1) + 2 * a i j + a i (j + 1)) * b i j) := by
  have x := S2_yp (lo0 := lo0) (lo1 := lo1) (per_mul ha hb)
  have y := S2_yp (lo0 := lo0) (lo1 := lo1) (per_mul (per_south ha) hb)
  simp only [add_sub_cancel_right] at x y
  have e : S2 N M lo0 lo1 (fun i j => (a i j + a i (j + 1)) * (b i j + b i (j + 1))) =
      S2 N M lo0 lo1 (fun i j => (a i j + a i (j + 1)) * b i j)
        + (S2 N M lo0 lo1 (fun i j => a i j * b i (j + 1)) + S2 N M lo0 lo1 (fun i j => a i (j + 1) * b i (j + 1))) := by
    rw [← S2_add, ← S2_add]; exact S2_congr fun i j => by ring
  rw [e, x, y, ← S2_add, ← S2_add]
  exact S2_congr fun i j => by ring

theorem avg_east {a b : Field2} (ha : Periodic2 N M a) (hb : Periodic2 N M b) :
    S2 N M lo0 lo1 (fun i j => (a i j + a (i + 1) j) * (b i j + b (i + 1) j)) =
      S2 N M lo0 lo1 (fun i j => (a (i - 1) j + 2 * a i j + a (i + 1) j) * b i j) := by
  have x := S2_xp (lo0 := lo0) (lo1 := lo1) (per_mul ha hb)
  have y := S2_xp (lo0 := lo0) (lo1 := lo1) (per_mul (per_west ha) hb)
  simp only [add_sub_cancel_right] at x y
  have e : S2 N M lo0 lo1 (fun i j => (a i j + a (i + 1) j) * (b i j + b (i + 1) j)) =
      S2 N M lo0 lo1 (fun i j => (a i j + a (i + 1) j) * b i j)
        + (S2 N M lo0 lo1 (fun i j => a i j * b (i + 1) j) + S2 N M lo0 lo1 (fun i j => a (i + 1) j * b (i + 1) j)) := by
    rw [← S2_add, ← S2_add]; exact S2_congr fun i j => by ring
  rw [e, x, y, ← S2_add, ← S2_add]
  exact S2_congr fun i j => by ring

theorem slopeX_deriv {dx t : ℝ} {u : ℝ → Field2} {v : Field2} (hv : ∀ i j, HasDerivAt (fun s => u s i j) (v i j) t) (i j : ℤ) :
    HasDerivAt (fun s => slopeX dx (u s) i j) (slopeX dx v i j) t := ((hv i j).sub (hv (i - 1) j)).div_const dx

theorem slopeY_deriv {dy t : ℝ} {u : ℝ → Field2} {v : Field2} (hv : ∀ i j, HasDerivAt (fun s => u s i j) (v i j) t) (i j : ℤ) :
    HasDerivAt (fun s => slopeY dy (u s) i j) (slopeY dy v i j) t := ((hv i j).sub (hv i (j - 1))).div_const dy

theorem grad_deriv (st : Stencil) (eps dx dy : ℝ) {u : ℝ → Field2} {v : Field2} {t : ℝ} (hp : ∀ s, Periodic2 N M (u s))
    (hv : ∀ i j, HasDerivAt (fun s => u s i j) (v i j) t) :
    HasDerivAt (fun s => S2 N M lo0 lo1 (gradEnergy st eps dx dy (u s)))
      (S2 N M lo0 lo1 fun i j => -(diffTerm2 st eps dx dy (u t) i j * v i j)) t := by
  have hvp := Periodic2.deriv hp hv
  have pX : Periodic2 N M (slopeX dx (u t)) := slopeX_per (hp t)
  have pY : Periodic2 N M (slopeY dy (u t)) := slopeY_per (hp t)
  have qX : Periodic2 N M (slopeX dx v) := slopeX_per hvp
  have qY : Periodic2 N M (slopeY dy v) := slopeY_per hvp
  cases st with
  | simple =>
    have h : ∀ i j, HasDerivAt (fun s => gradEnergy .simple eps dx dy (u s) i j)
        ((gradFluxX eps dx (u t) i j) * slopeX dx v i j + (gradFluxY eps dy (u t) i j) * slopeY dy v i j) t := fun i j =>
      ((((slopeX_deriv hv i j).pow 2).add ((slopeY_deriv hv i j).pow 2)).const_mul (eps ^ 2 / 2)).congr_deriv (by
        simp only [gradFluxX, gradFluxY, slopeX, slopeY]; ring)
    refine (S2_deriv h).congr_deriv ?_
    have f0 : Periodic2 N M (gradFluxX eps dx (u t)) := by
      rw [gradFluxX_slope]; exact per_map pX fun x => eps * eps * x
    have f1 : Periodic2 N M (gradFluxY eps dy (u t)) := by
      rw [gradFluxY_slope]; exact per_map pY fun x => eps * eps * x
    exact slope_parts dx dy f0 f1 hvp
  | isotropic =>
    have h : ∀ i j, HasDerivAt (fun s => gradEnergy .isotropic eps dx dy (u s) i j)
        (eps ^ 2 * (2 / 3 * (slopeX dx (u t) i j * slopeX dx v i j + slopeY dy (u t) i j * slopeY dy v i j)
          + 1 / 12 * ((slopeX dx (u t) i j + slopeX dx (u t) i (j + 1)) * (slopeX dx v i j + slopeX dx v i (j + 1))
            + (slopeY dy (u t) i j + slopeY dy (u t) (i + 1) j) * (slopeY dy v i j + slopeY dy v (i + 1) j)))) t := fun i j =>
      (((((slopeX_deriv hv i j).pow 2).add ((slopeY_deriv hv i j).pow 2)).const_mul (2 / 3)).add
        ((((((slopeX_deriv hv i j).add (slopeX_deriv hv i (j + 1))).div_const 2).pow 2).add
          ((((slopeY_deriv hv i j).add (slopeY_deriv hv (i + 1) j)).div_const 2).pow 2)).const_mul (1 / 3))
        |>.const_mul (eps ^ 2 / 2)).congr_deriv (by simp; ring)
    refine (S2_deriv h).congr_deriv ?_
    have f0 : Periodic2 N M (isoFluxX eps dx (u t)) := by
      rw [isoFluxX_slope]; exact per_map3 (per_south pX) pX (per_north pX) fun x y z => eps * eps / 12 * (x + 10 * y + z)
    have f1 : Periodic2 N M (isoFluxY eps dy (u t)) := by
      rw [isoFluxY_slope]; exact per_map3 (per_west pY) pY (per_east pY) fun x y z => eps * eps / 12 * (x + 10 * y + z)
    rw [show (S2 N M lo0 lo1 fun i j => -(diffTerm2 .isotropic eps dx dy (u t) i j * v i j)) =
      S2 N M lo0 lo1 (fun i j => isoFluxX eps dx (u t) i j * slopeX dx v i j + isoFluxY eps dy (u t) i j * slopeY dy v i j) from
      (slope_parts dx dy f0 f1 hvp).symm, isoFluxX_slope, isoFluxY_slope]
    have c : (S2 N M lo0 lo1 fun i j => eps ^ 2 * (2 / 3 * (slopeX dx (u t) i j * slopeX dx v i j + slopeY dy (u t) i j * slopeY dy v i j)
        + 1 / 12 * ((slopeX dx (u t) i j + slopeX dx (u t) i (j + 1)) * (slopeX dx v i j + slopeX dx v i (j + 1))
          + (slopeY dy (u t) i j + slopeY dy (u t) (i + 1) j) * (slopeY dy v i j + slopeY dy v (i + 1) j)))) =
        (S2 N M lo0 lo1 fun i j => eps ^ 2 * (2 / 3 * (slopeX dx (u t) i j * slopeX dx v i j + slopeY dy (u t) i j * slopeY dy v i j)))
        + (eps ^ 2 / 12 * (S2 N M lo0 lo1 fun i j => (slopeX dx (u t) i j + slopeX dx (u t) i (j + 1)) * (slopeX dx v i j + slopeX dx v i (j + 1)))
          + eps ^ 2 / 12 * (S2 N M lo0 lo1 fun i j => (slopeY dy (u t) i j + slopeY dy (u t) (i + 1) j) * (slopeY dy v i j + slopeY dy v (i + 1) j))) := by
      rw [← S2_mul, ← S2_mul, ← S2_add, ← S2_add]
      exact S2_congr fun i j => by ring
    rw [c, avg_north pX qX, avg_east pY qY, ← S2_mul, ← S2_mul, ← S2_add, ← S2_add]
    exact S2_congr fun i j => by ring

theorem S2_sum {ι : Type} (s : Finset ι) (F : ι → Field2) :
    ∑ p ∈ s, S2 N M lo0 lo1 (F p) = S2 N M lo0 lo1 fun i j => ∑ p ∈ s, F p i j := by
  unfold S2
  rw [Finset.sum_comm]
  refine Finset.sum_congr rfl fun b _ => ?_
  rw [Finset.sum_comm]

end

theorem rate_push2 (n : ℕ) (st : Stencil) (eps gamma m dx dy : ℝ) (mob : Field2) (f : ℤ → ℤ → GrainForce) (phi : Fin (n + 1) → Field2)
    (p : Fin (n + 1)) (i j : ℤ) : rateMulti2 n st .fixed eps gamma m dx dy mob f phi p i j =
      mob i j * push2 n st eps gamma m dx dy f phi p i j := by
  simp only [push2, rateMulti2, cellRateM, frameTerm]; ring

section
variable {N M K : ℕ} {lo0 lo1 lo2 : ℤ}

theorem S3_sum {ι : Type} (s : Finset ι) (F : ι → Field3) :
    ∑ p ∈ s, S3 N M K lo0 lo1 lo2 (F p) = S3 N M K lo0 lo1 lo2 fun i j k => ∑ p ∈ s, F p i j k := by
  unfold S3
  rw [Finset.sum_comm]
  refine Finset.sum_congr rfl fun c _ => ?_
  rw [Finset.sum_comm]
  refine Finset.sum_congr rfl fun b _ => ?_
  rw [Finset.sum_comm]

theorem S3_congr' {f g : Field3} (h : ∀ i j k, f i j k = g i j k) : S3 N M K lo0 lo1 lo2 f = S3 N M K lo0 lo1 lo2 g := by
  unfold S3; simp only [h]

theorem S3_deriv' {f : ℝ → Field3} {f' : Field3} {t : ℝ} (h : ∀ i j k, HasDerivAt (fun s => f s i j k) (f' i j k) t) :
    HasDerivAt (fun s => S3 N M K lo0 lo1 lo2 (f s)) (S3 N M K lo0 lo1 lo2 f') t :=
  HasDerivAt.fun_sum fun _ _ => HasDerivAt.fun_sum fun _ _ => HasDerivAt.fun_sum fun _ _ => h _ _ _

theorem slope3_parts (dx dy dz : ℝ) {u v : Field3} (hu : Periodic3 N M K u) (hv : Periodic3 N M K v) (e : ℝ) :
    S3 N M K lo0 lo1 lo2 (fun i j k => e ^ 2 * (slope3 dx 0 u i j k * slope3 dx 0 v i j k + slope3 dy 1 u i j k * slope3 dy 1 v i j k
      + slope3 dz 2 u i j k * slope3 dz 2 v i j k)) =
      S3 N M K lo0 lo1 lo2 (fun i j k => -(div3 dx dy dz (gradFlux3X e dx u) (gradFlux3Y e dy u) (gradFlux3Z e dz u) i j k * v i j k)) := by
  have px : Periodic3 N M K fun i j k => (u i j k - u (i - 1) j k) * v (i - 1) j k :=
    ⟨fun i j k => by beta_reduce; rw [show i + (N : ℤ) - 1 = i - 1 + N by ring, hu.1, hu.1, hv.1],
     fun i j k => by beta_reduce; rw [hu.2.1, hu.2.1, hv.2.1], fun i j k => by beta_reduce; rw [hu.2.2, hu.2.2, hv.2.2]⟩
  have py : Periodic3 N M K fun i j k => (u i j k - u i (j - 1) k) * v i (j - 1) k :=
    ⟨fun i j k => by beta_reduce; rw [hu.1, hu.1, hv.1],
     fun i j k => by beta_reduce; rw [show j + (M : ℤ) - 1 = j - 1 + M by ring, hu.2.1, hu.2.1, hv.2.1],
     fun i j k => by beta_reduce; rw [hu.2.2, hu.2.2, hv.2.2]⟩
  have pz : Periodic3 N M K fun i j k => (u i j k - u i j (k - 1)) * v i j (k - 1) :=
    ⟨fun i j k => by beta_reduce; rw [hu.1, hu.1, hv.1], fun i j k => by beta_reduce; rw [hu.2.1, hu.2.1, hv.2.1],
     fun i j k => by beta_reduce; rw [show k + (K : ℤ) - 1 = k - 1 + K by ring, hu.2.2, hu.2.2, hv.2.2]⟩
  have x := S3_xp (lo0 := lo0) (lo1 := lo1) (lo2 := lo2) px
  have y := S3_yp (lo0 := lo0) (lo1 := lo1) (lo2 := lo2) py
  have z := S3_zp (lo0 := lo0) (lo1 := lo1) (lo2 := lo2) pz
  simp only [add_sub_cancel_right] at x y z
  have e1 : S3 N M K lo0 lo1 lo2 (fun i j k => e ^ 2 * (slope3 dx 0 u i j k * slope3 dx 0 v i j k + slope3 dy 1 u i j k * slope3 dy 1 v i j k
      + slope3 dz 2 u i j k * slope3 dz 2 v i j k)) =
      S3 N M K lo0 lo1 lo2 (fun i j k => e ^ 2 * ((u i j k - u (i - 1) j k) / dx ^ 2 + (u i j k - u i (j - 1) k) / dy ^ 2
        + (u i j k - u i j (k - 1)) / dz ^ 2) * v i j k)
      + (-(e ^ 2 / dx ^ 2) * S3 N M K lo0 lo1 lo2 (fun i j k => (u i j k - u (i - 1) j k) * v (i - 1) j k)
        + (-(e ^ 2 / dy ^ 2) * S3 N M K lo0 lo1 lo2 (fun i j k => (u i j k - u i (j - 1) k) * v i (j - 1) k)
        + -(e ^ 2 / dz ^ 2) * S3 N M K lo0 lo1 lo2 (fun i j k => (u i j k - u i j (k - 1)) * v i j (k - 1)))) := by
    rw [← S3_mul, ← S3_mul, ← S3_mul, ← S3_add, ← S3_add, ← S3_add]
    exact S3_congr' fun i j k => by simp only [slope3]; ring
  rw [e1, ← x, ← y, ← z, ← S3_mul, ← S3_mul, ← S3_mul, ← S3_add, ← S3_add, ← S3_add]
  exact S3_congr' fun i j k => by simp only [div3, gradFlux3X, gradFlux3Y, gradFlux3Z, add_sub_cancel_right]; ring

end

/-! ## C139 -/

/-- **C139** (balance): the energy changes at minus the mobility times the squared forces, summed over order parameters and cells. -/
theorem c139_balance (n : ℕ) (st : Stencil) (eps gamma m dx dy w : ℝ) (N M : ℕ) (lo0 lo1 : ℤ) (mob : ℝ → Field2) (f : ℤ → ℤ → GrainForce)
    (phi : ℝ → Fin (n + 1) → Field2) (t : ℝ) (h : Moves2 n st eps gamma m dx dy N M mob f phi t) :
    HasDerivAt (fun s => grainEnergy2 n st eps gamma m dx dy w N M lo0 lo1 f (phi s))
      (-S2 N M lo0 lo1 fun i j => w * (mob t i j * ∑ p, push2 n st eps gamma m dx dy f (phi t) p i j ^ 2)) t := by
  have hg := HasDerivAt.fun_sum (u := (Finset.univ : Finset (Fin (n + 1)))) fun p _ =>
    grad_deriv (lo0 := lo0) (lo1 := lo1) st eps dx dy (fun s => h.per s p) (fun i j => h.moves p i j)
  have hl := S2_deriv (N := N) (M := M) (lo0 := lo0) (lo1 := lo1) fun i j =>
    (wells_deriv (n + 1) gamma m (fun s p => phi s p i j) _ t (fun p => h.moves p i j)).add
      (bulk_deriv n (f i j) (fun s p => phi s p i j) _ t (fun p => h.moves p i j) (h.ok i j))
  have key := (hg.add hl).const_mul w
  have eE : (fun s => grainEnergy2 n st eps gamma m dx dy w N M lo0 lo1 f (phi s)) = fun s =>
      w * ((∑ p, S2 N M lo0 lo1 (gradEnergy st eps dx dy (phi s p)))
        + S2 N M lo0 lo1 fun i j => wells (n + 1) gamma m (fun p => phi s p i j) + bulk n (f i j) fun p => phi s p i j) := by
    funext s
    unfold grainEnergy2
    rw [S2_mul, S2_sum, ← S2_add]
    congr 1
    exact S2_congr fun i j => by ring
  rw [eE]
  refine key.congr_deriv ?_
  rw [S2_sum, ← S2_add, ← S2_mul, ← neg_one_mul, ← S2_mul]
  refine S2_congr fun i j => ?_
  rw [Finset.mul_sum, Finset.mul_sum, Finset.mul_sum, ← Finset.sum_neg_distrib, ← Finset.sum_neg_distrib, ← Finset.sum_add_distrib,
    ← Finset.sum_add_distrib, Finset.mul_sum]
  refine Finset.sum_congr rfl fun p _ => ?_
  simp only [push2, rateMulti2, cellRateM, frameTerm]
  ring

/-- **C139** (grain structures lose energy): along a run with given energies of the phases, either stencil, any nonnegative mobilities and
any number of order parameters, the energy never grows.  Partial: it is not the energy the program prints
(`c139_violation_reported`), nor the one with the wells of the documentation (`c139_violation_documented`). -/
theorem c139_monotone_partial (n : ℕ) (st : Stencil) (eps gamma m dx dy w : ℝ) (hw : 0 ≤ w) (N M : ℕ) (lo0 lo1 : ℤ) (mob : ℝ → Field2)
    (hm : ∀ t i j, 0 ≤ mob t i j) (f : ℤ → ℤ → GrainForce) (phi : ℝ → Fin (n + 1) → Field2)
    (h : Flow2 n st eps gamma m dx dy N M mob f phi) :
    Antitone fun s => grainEnergy2 n st eps gamma m dx dy w N M lo0 lo1 f (phi s) := by
  have key := fun t => c139_balance n st eps gamma m dx dy w N M lo0 lo1 mob f phi t (h t)
  refine antitone_of_deriv_nonpos (fun t => (key t).differentiableAt) fun t => ?_
  rw [(key t).deriv]
  exact neg_nonpos.mpr (S2_nonneg fun i j => mul_nonneg hw (mul_nonneg (hm t i j) (Finset.sum_nonneg fun p _ => sq_nonneg _)))

/-- **C139** (only rest does not dissipate): with positive mobilities, if the energy is stationary then no order parameter changes in
any cell. -/
theorem c139_rest_partial (n : ℕ) (st : Stencil) (eps gamma m dx dy w : ℝ) (hw : 0 < w) (N M : ℕ) (lo0 lo1 : ℤ) (mob : ℝ → Field2)
    (hm : ∀ t i j, 0 < mob t i j) (f : ℤ → ℤ → GrainForce) (phi : ℝ → Fin (n + 1) → Field2)
    (h : Flow2 n st eps gamma m dx dy N M mob f phi) (t : ℝ)
    (h0 : HasDerivAt (fun s => grainEnergy2 n st eps gamma m dx dy w N M lo0 lo1 f (phi s)) 0 t) (p : Fin (n + 1)) (i j : ℤ)
    (hi : lo0 ≤ i ∧ i < lo0 + N) (hj : lo1 ≤ j ∧ j < lo1 + M) : HasDerivAt (fun s => phi s p i j) 0 t := by
  have e := neg_eq_zero.mp (h0.unique (c139_balance n st eps gamma m dx dy w N M lo0 lo1 mob f phi t (h t))).symm
  have nn : ∀ i j, 0 ≤ w * (mob t i j * ∑ p, push2 n st eps gamma m dx dy f (phi t) p i j ^ 2) := fun i j =>
    mul_nonneg hw.le (mul_nonneg (hm t i j).le (Finset.sum_nonneg fun p _ => sq_nonneg _))
  obtain ⟨a, ha⟩ := Int.eq_ofNat_of_zero_le (sub_nonneg.mpr hi.1)
  obtain ⟨b, hb⟩ := Int.eq_ofNat_of_zero_le (sub_nonneg.mpr hj.1)
  have ei : i = lo0 + (a : ℤ) := by omega
  have ej : j = lo1 + (b : ℤ) := by omega
  unfold S2 at e
  have e1 := (Finset.sum_eq_zero_iff_of_nonneg fun b _ => Finset.sum_nonneg fun a _ => nn _ _).mp e b (Finset.mem_range.mpr (by omega))
  have e2 := (Finset.sum_eq_zero_iff_of_nonneg fun a _ => nn _ _).mp e1 a (Finset.mem_range.mpr (by omega))
  rw [← ei, ← ej] at e2
  have e3 : ∑ p, push2 n st eps gamma m dx dy f (phi t) p i j ^ 2 = 0 := by
    rcases mul_eq_zero.mp e2 with q | q
    · exact absurd q hw.ne'
    · exact (mul_eq_zero.mp q).resolve_left (hm t i j).ne'
  have e4 := (Finset.sum_eq_zero_iff_of_nonneg fun p _ => sq_nonneg _).mp e3 p (Finset.mem_univ p)
  refine ((h t).moves p i j).congr_deriv ?_
  rw [rate_push2, pow_eq_zero_iff (two_ne_zero) |>.mp e4, mul_zero]

/-- **C139** (no cycles): a structure does not come back to an energy it had unless nothing happened in between. -/
theorem c139_no_cycle_partial (n : ℕ) (st : Stencil) (eps gamma m dx dy w : ℝ) (hw : 0 < w) (N M : ℕ) (lo0 lo1 : ℤ) (mob : ℝ → Field2)
    (hm : ∀ t i j, 0 < mob t i j) (f : ℤ → ℤ → GrainForce) (phi : ℝ → Fin (n + 1) → Field2)
    (h : Flow2 n st eps gamma m dx dy N M mob f phi) (a b : ℝ)
    (hab : grainEnergy2 n st eps gamma m dx dy w N M lo0 lo1 f (phi b) = grainEnergy2 n st eps gamma m dx dy w N M lo0 lo1 f (phi a))
    (t : ℝ) (ht : a < t ∧ t < b) (p : Fin (n + 1)) (i j : ℤ)
    (hi : lo0 ≤ i ∧ i < lo0 + N) (hj : lo1 ≤ j ∧ j < lo1 + M) : HasDerivAt (fun s => phi s p i j) 0 t := by
  have mono := c139_monotone_partial n st eps gamma m dx dy w hw.le N M lo0 lo1 mob (fun t i j => (hm t i j).le) f phi h
  refine c139_rest_partial n st eps gamma m dx dy w hw N M lo0 lo1 mob hm f phi h t ?_ p i j hi hj
  refine (hasDerivAt_const t (grainEnergy2 n st eps gamma m dx dy w N M lo0 lo1 f (phi a))).congr_of_eventuallyEq ?_
  filter_upwards [Ioo_mem_nhds ht.1 ht.2] with u hu
  exact le_antisymm (mono hu.1.le) (hab ▸ mono hu.2.le)

/-- **C139** (balance, 3D). -/
theorem c139_balance_3d (n : ℕ) (eps gamma m dx dy dz w : ℝ) (N M K : ℕ) (lo0 lo1 lo2 : ℤ) (mob : ℝ → Field3)
    (f : ℤ → ℤ → ℤ → GrainForce) (phi : ℝ → Fin (n + 1) → Field3) (t : ℝ)
    (h : Moves3 n eps gamma m dx dy dz N M K mob f phi t) :
    HasDerivAt (fun s => grainEnergy3 n eps gamma m dx dy dz w N M K lo0 lo1 lo2 f (phi s))
      (-S3 N M K lo0 lo1 lo2 fun i j k => w * (mob t i j k * ∑ p, push3 n eps gamma m dx dy dz f (phi t) p i j k ^ 2)) t := by
  have hs : ∀ p (d : Fin 3) (e : ℝ) i j k, HasDerivAt (fun s => slope3 e d (phi s p) i j k)
      (slope3 e d (fun i j k => rateMulti3 n .fixed eps gamma m dx dy dz (mob t) f (phi t) p i j k) i j k) t := by
    intro p d e i j k
    match d with
    | 0 => exact ((h.moves p i j k).sub (h.moves p (i - 1) j k)).div_const e
    | 1 => exact ((h.moves p i j k).sub (h.moves p i (j - 1) k)).div_const e
    | 2 => exact ((h.moves p i j k).sub (h.moves p i j (k - 1))).div_const e
  have hg : ∀ p, HasDerivAt (fun s => S3 N M K lo0 lo1 lo2 fun i j k => eps ^ 2 / 2 * (slope3 dx 0 (phi s p) i j k ^ 2
      + slope3 dy 1 (phi s p) i j k ^ 2 + slope3 dz 2 (phi s p) i j k ^ 2))
      (S3 N M K lo0 lo1 lo2 fun i j k => -(div3 dx dy dz (gradFlux3X eps dx (phi t p)) (gradFlux3Y eps dy (phi t p)) (gradFlux3Z eps dz (phi t p)) i j k
        * rateMulti3 n .fixed eps gamma m dx dy dz (mob t) f (phi t) p i j k)) t := by
    intro p
    rw [← slope3_parts dx dy dz (h.per t p) (Periodic3.deriv (fun s => h.per s p) (fun i j k => h.moves p i j k))]
    exact S3_deriv' fun i j k => (((((hs p 0 dx i j k).pow 2).add ((hs p 1 dy i j k).pow 2)).add ((hs p 2 dz i j k).pow 2)).const_mul
      (eps ^ 2 / 2)).congr_deriv (by simp; ring)
  have hG := HasDerivAt.fun_sum (u := (Finset.univ : Finset (Fin (n + 1)))) fun p _ => hg p
  have hl := S3_deriv' (N := N) (M := M) (K := K) (lo0 := lo0) (lo1 := lo1) (lo2 := lo2) fun i j k =>
    (wells_deriv (n + 1) gamma m (fun s p => phi s p i j k) _ t (fun p => h.moves p i j k)).add
      (bulk_deriv n (f i j k) (fun s p => phi s p i j k) _ t (fun p => h.moves p i j k) (h.ok i j k))
  have key := (hG.add hl).const_mul w
  have eE : (fun s => grainEnergy3 n eps gamma m dx dy dz w N M K lo0 lo1 lo2 f (phi s)) = fun s =>
      w * ((∑ p, S3 N M K lo0 lo1 lo2 fun i j k => eps ^ 2 / 2 * (slope3 dx 0 (phi s p) i j k ^ 2
      + slope3 dy 1 (phi s p) i j k ^ 2 + slope3 dz 2 (phi s p) i j k ^ 2))
        + S3 N M K lo0 lo1 lo2 fun i j k => wells (n + 1) gamma m (fun p => phi s p i j k) + bulk n (f i j k) fun p => phi s p i j k) := by
    funext s
    unfold grainEnergy3
    rw [S3_mul, S3_sum, ← S3_add]
    congr 1
    exact S3_congr' fun i j k => by ring
  rw [eE]
  refine key.congr_deriv ?_
  rw [S3_sum, ← S3_add, ← S3_mul, ← neg_one_mul, ← S3_mul]
  refine S3_congr' fun i j k => ?_
  rw [Finset.mul_sum, Finset.mul_sum, Finset.mul_sum, ← Finset.sum_neg_distrib, ← Finset.sum_neg_distrib, ← Finset.sum_add_distrib,
    ← Finset.sum_add_distrib, Finset.mul_sum]
  refine Finset.sum_congr rfl fun p _ => ?_
  simp only [push3, rateMulti3, cellRateM, frameTerm]
  ring

/-- **C139** (grain structures lose energy, 3D). -/
theorem c139_monotone_3d_partial (n : ℕ) (eps gamma m dx dy dz w : ℝ) (hw : 0 ≤ w) (N M K : ℕ) (lo0 lo1 lo2 : ℤ) (mob : ℝ → Field3)
    (hm : ∀ t i j k, 0 ≤ mob t i j k) (f : ℤ → ℤ → ℤ → GrainForce) (phi : ℝ → Fin (n + 1) → Field3)
    (h : Flow3 n eps gamma m dx dy dz N M K mob f phi) :
    Antitone fun s => grainEnergy3 n eps gamma m dx dy dz w N M K lo0 lo1 lo2 f (phi s) := by
  have key := fun t => c139_balance_3d n eps gamma m dx dy dz w N M K lo0 lo1 lo2 mob f phi t (h t)
  refine antitone_of_deriv_nonpos (fun t => (key t).differentiableAt) fun t => ?_
  rw [(key t).deriv]
  exact neg_nonpos.mpr (S3_nonneg fun i j k => mul_nonneg hw (mul_nonneg (hm t i j k) (Finset.sum_nonneg fun p _ => sq_nonneg _)))

/-- **C139** (violation: what is printed): the printed energy is blind to every order parameter but the first. -/
theorem c139_violation_reported {n : ℕ} (interp : Char) (eps scale dx dy w : ℝ) (fl fa : Field2) (lo0 hi0 lo1 hi1 : ℤ)
    (phi phi' : Fin (n + 1) → Field2) (h : phi 0 = phi' 0) :
    reported2 interp eps scale dx dy w fl fa lo0 hi0 lo1 hi1 phi = reported2 interp eps scale dx dy w fl fa lo0 hi0 lo1 hi1 phi' := by
  simp only [reported2, h]

theorem diff_uniform (st : Stencil) (eps dx dy x : ℝ) (i j : ℤ) : diffTerm2 st eps dx dy (fun _ _ => x) i j = 0 := by
  cases st <;> simp [diffTerm2, div2, gradFluxX, gradFluxY, isoFluxX, isoFluxY]

/-- **C139** (violation: the printed energy grows): in a sample without driving force where one grain, the first, is forming
(`0 < φ₀ < 1/2`, the others absent), the energy the program prints grows; every term of it, the interpolation being any the program
accepts. -/
theorem c139_violation_grows (n : ℕ) (st : Stencil) (interp : Char) (hi : interp ∈ proper) (eps gamma m dx dy w scale x : ℝ) (hg : 0 ≤ gamma) (hm : 0 < m)
    (hw : 0 < w) (hsc : 0 < scale) (hx : 0 < x ∧ x < 1 / 2) (N M : ℕ) (hN : 0 < N) (hM : 0 < M) (lo0 lo1 : ℤ) (mob : ℝ → Field2)
    (hmob : ∀ t i j, 0 < mob t i j) (phi : ℝ → Fin (n + 1) → Field2)
    (t : ℝ) (h : Moves2 n st eps gamma m dx dy N M mob (fun _ _ => .none) phi t)
    (hphi : ∀ p i j, phi t p i j = if p = 0 then x else 0) (En : ℝ → ℝ)
    (hEn : ∀ s, reported2 interp eps scale dx dy w (fun _ _ => 0) (fun _ _ => 0) lo0 (lo0 + N - 1) lo1 (lo1 + M - 1) (phi s) = some (En s)) :
    ∃ e > 0, HasDerivAt En e t := by
  have hcomp : ∀ y, ∃ u, interpFunc interp y = some u := fun y =>
    Option.isSome_iff_exists.mp ((c10_supported_kinds interp y).mpr (List.mem_cons_of_mem _ hi))
  choose H hH using hcomp
  have hE : ∀ s, En s = ∑ b ∈ Finset.range M, ∑ a ∈ Finset.range N, (interfaceCell eps dx dy (phi s 0) (lo0 + (a : ℤ)) (lo1 + (b : ℤ))
      + (fun (_ _ : ℤ) y => scale * (16 * y * y * (1 - y) * (1 - y))) (lo0 + (a : ℤ)) (lo1 + (b : ℤ)) (phi s 0 (lo0 + (a : ℤ)) (lo1 + (b : ℤ)))) * w := by
    intro s
    have e := hEn s
    unfold reported2 energy2 at e
    simp only [Option.bind_eq_bind] at e
    rw [accumulate_some _ _ _ (fun c => rfl),
      accumulate_some (fun c : ℤ × ℤ => wellCell 'd' scale (phi s 0 c.1 c.2))
        (fun c => scale * (16 * phi s 0 c.1 c.2 * phi s 0 c.1 c.2 * (1 - phi s 0 c.1 c.2) * (1 - phi s 0 c.1 c.2))) _ (fun c => rfl),
      accumulate_some (fun c : ℤ × ℤ => bulkCell interp 0 0 (phi s 0 c.1 c.2)) (fun _ => 0) _
        (fun c => by simp [bulkCell, hH _])] at e
    simp only [Option.bind_some, loop2_sum, Option.some.injEq, zero_mul, Finset.sum_const_zero, add_zero, ← Finset.sum_add_distrib] at e
    rw [← e]
    exact Finset.sum_congr rfl fun b _ => Finset.sum_congr rfl fun a _ => by ring
  have hF : ∀ (_ _ : ℤ), HasDerivAt (fun y : ℝ => scale * (16 * y * y * (1 - y) * (1 - y))) (scale * (32 * x * (1 - x) * (1 - 2 * x))) x := by
    intro _ _
    have hi := hasDerivAt_id' x
    exact (((((hi.const_mul 16).mul hi).mul ((hasDerivAt_const x (1 : ℝ)).sub hi)).mul ((hasDerivAt_const x (1 : ℝ)).sub hi)).const_mul
      scale).congr_deriv (by simp only [Pi.mul_apply, Pi.sub_apply]; ring)
  have hd := energy_deriv2 N M lo0 lo1 eps dx dy w (fun s => phi s 0) _ t (fun s => h.per s 0) (fun i j => h.moves 0 i j)
    (fun _ _ y => scale * (16 * y * y * (1 - y) * (1 - y))) (fun _ _ => scale * (32 * x * (1 - x) * (1 - 2 * x)))
    (fun i j => by rw [hphi 0 i j, if_pos rfl]; exact hF i j)
  have e0 : phi t = fun p => fun _ _ => if p = 0 then x else 0 := by funext p i j; exact hphi p i j
  refine ⟨_, ?_, (hd.congr_of_eventuallyEq (Eventually.of_forall hE))⟩
  have well : multiWell (n + 1) gamma m (fun k => if k = 0 then x else 0) 0 = m * x * (1 - x) * (1 + x + 2 * gamma * x) := by
    rw [c35_violation_extra_force]
    have : (∑ k : Fin (n + 1), (if k = 0 then x else 0 : ℝ) ^ 2) = x ^ 2 := by
      rw [Fin.sum_univ_succ]; simp [Fin.succ_ne_zero]
    rw [this]
    simp only [if_true]
    ring
  refine Finset.sum_pos (fun b _ => Finset.sum_pos (fun a _ => ?_) ⟨0, Finset.mem_range.mpr hN⟩) ⟨0, Finset.mem_range.mpr hM⟩
  have hdiv := diff_uniform .simple eps dx dy x (lo0 + (a : ℤ)) (lo1 + (b : ℤ))
  simp only [diffTerm2] at hdiv
  simp only [e0, rateMulti2, cellRateM, frameTerm, drive, diff_uniform, add_zero, zero_add, if_true, hdiv, neg_zero]
  rw [well]
  have h1 : 0 < 1 - x := by linarith
  have h2 : 0 < 1 - 2 * x := by linarith
  have hx1 := hx.1
  have := hmob t (lo0 + (a : ℤ)) (lo1 + (b : ℤ))
  positivity

/-- **C139** (violation: the documented wells): with the potential of Moelans et al. in the place of the wells the energy of a uniform
sample changes at the rate shown, per cell. -/
theorem c139_violation_documented_rate (n : ℕ) (st : Stencil) (eps gamma m dx dy w : ℝ) (N M : ℕ) (lo0 lo1 : ℤ) (mob : ℝ → Field2)
    (phi : ℝ → Fin (n + 1) → Field2) (t : ℝ) (h : Moves2 n st eps gamma m dx dy N M mob (fun _ _ => .none) phi t) (y : Fin (n + 1) → ℝ)
    (hphi : ∀ p i j, phi t p i j = y p) :
    HasDerivAt (fun s => S2 N M lo0 lo1 fun i j => w * ((∑ p, gradEnergy st eps dx dy (phi s p) i j)
        + multiPotential (n + 1) gamma m (fun p => phi s p i j)))
      (S2 N M lo0 lo1 fun i j => -(w * (mob t i j * ∑ p, multiWell (n + 1) gamma m y p
        * (multiWell (n + 1) gamma m y p - 2 * m * gamma * y p ^ 2 * (1 - y p))))) t := by
  have hg := HasDerivAt.fun_sum (u := (Finset.univ : Finset (Fin (n + 1)))) fun p _ =>
    grad_deriv (lo0 := lo0) (lo1 := lo1) st eps dx dy (fun s => h.per s p) (fun i j => h.moves p i j)
  have hl := S2_deriv (N := N) (M := M) (lo0 := lo0) (lo1 := lo1) fun i j =>
    multiPotential_deriv (n + 1) gamma m (fun s p => phi s p i j) _ t (fun p => h.moves p i j)
  have key := (hg.add hl).const_mul w
  have eE : (fun s => S2 N M lo0 lo1 fun i j => w * ((∑ p, gradEnergy st eps dx dy (phi s p) i j)
        + multiPotential (n + 1) gamma m (fun p => phi s p i j))) = fun s =>
      w * ((∑ p, S2 N M lo0 lo1 (gradEnergy st eps dx dy (phi s p)))
        + S2 N M lo0 lo1 fun i j => multiPotential (n + 1) gamma m (fun p => phi s p i j)) := by
    funext s
    rw [S2_mul, S2_sum, ← S2_add]
  rw [eE]
  refine key.congr_deriv ?_
  have e0 : phi t = fun p => fun _ _ => y p := by funext p i j; exact hphi p i j
  rw [S2_sum, ← S2_add, ← S2_mul]
  refine S2_congr fun i j => ?_
  rw [Finset.mul_sum, Finset.mul_sum, ← Finset.sum_add_distrib, Finset.mul_sum, ← Finset.sum_neg_distrib]
  refine Finset.sum_congr rfl fun p _ => ?_
  simp only [e0, rateMulti2, cellRateM, frameTerm, drive, diff_uniform, add_zero, zero_add, zero_mul, neg_zero]
  rw [c35_violation_extra_force (n + 1) gamma m y p]
  ring

/-- **C139** (violation: the documented energy grows): two grains of equal weight `s` in every cell, `γ = 3/2` (the value of the literature):
for `1/2 < s < 3/5` the order parameters grow further, and the documented energy with them. -/
theorem c139_violation_documented (st : Stencil) (eps m dx dy w s : ℝ) (hm : 0 < m) (hw : 0 < w) (hs : 1 / 2 < s ∧ s < 3 / 5) (N M : ℕ) (hN : 0 < N)
    (hM : 0 < M) (lo0 lo1 : ℤ) (mob : ℝ → Field2) (hmob : ∀ t i j, 0 < mob t i j)
    (phi : ℝ → Fin 2 → Field2) (t : ℝ) (h : Moves2 1 st eps (3 / 2) m dx dy N M mob (fun _ _ => .none) phi t)
    (hphi : ∀ p i j, phi t p i j = s) :
    ∃ e > 0, HasDerivAt (fun s => S2 N M lo0 lo1 fun i j => w * ((∑ p, gradEnergy st eps dx dy (phi s p) i j)
        + multiPotential 2 (3 / 2) m (fun p => phi s p i j))) e t := by
  refine ⟨_, ?_, c139_violation_documented_rate 1 st eps (3 / 2) m dx dy w N M lo0 lo1 mob phi t h (fun _ => s) hphi⟩
  refine Finset.sum_pos (fun b _ => Finset.sum_pos (fun a _ => ?_) ⟨0, Finset.mem_range.mpr hN⟩) ⟨0, Finset.mem_range.mpr hM⟩
  have hmb := hmob t (lo0 + (a : ℤ)) (lo1 + (b : ℤ))
  have e : ∀ p, multiWell (1 + 1) (3 / 2) m (fun _ : Fin (1 + 1) => s) p = m * s * (1 - 4 * s ^ 2 + 3 * s * (1 - s)) := by
    intro p
    rw [c35_violation_extra_force]
    simp only [Fin.sum_univ_two, Nat.reduceAdd]
    ring
  simp only [e, Finset.sum_const, Finset.card_univ, Fintype.card_fin, nsmul_eq_mul]
  have h1 : 0 < 1 - 4 * s ^ 2 + 3 * s * (1 - s) := by nlinarith [hs.1, hs.2]
  have h2 : 0 < 4 * s ^ 2 - 1 := by nlinarith [hs.1, hs.2]
  have hs0 : 0 < s := by linarith [hs.1]
  have : -(w * (mob t (lo0 + (a : ℤ)) (lo1 + (b : ℤ)) * (((1 + 1 : ℕ) : ℝ) * (m * s * (1 - 4 * s ^ 2 + 3 * s * (1 - s))
      * (m * s * (1 - 4 * s ^ 2 + 3 * s * (1 - s)) - 2 * m * (3 / 2) * s ^ 2 * (1 - s)))))) =
      w * mob t (lo0 + (a : ℤ)) (lo1 + (b : ℤ)) * 2 * (m * s) ^ 2 * (1 - 4 * s ^ 2 + 3 * s * (1 - s)) * (4 * s ^ 2 - 1) := by
    push_cast; ring
  rw [this]
  positivity

/-- A run that is not at rest: one order parameter, `γ = 0`, growing from 0 to 1 everywhere. -/
example (st : Stencil) (eps dx dy : ℝ) (N M : ℕ) :
    Flow2 0 st eps 0 1 dx dy N M (fun _ _ _ => 1) (fun _ _ => .none) (fun t _ _ _ => (Real.sqrt (1 + Real.exp (-(2 * t))))⁻¹) := fun t => {
  per := fun _ _ => ⟨fun _ _ => rfl, fun _ _ => rfl⟩
  ok := fun _ _ => trivial
  moves := by
    intro p i j
    have hpos : 0 < 1 + Real.exp (-(2 * t)) := by positivity
    have hs : 0 < Real.sqrt (1 + Real.exp (-(2 * t))) := Real.sqrt_pos.mpr hpos
    have h1 : HasDerivAt (fun t : ℝ => 1 + Real.exp (-(2 * t))) (Real.exp (-(2 * t)) * -(2 * 1)) t :=
      ((((hasDerivAt_id' t).const_mul 2).neg).exp).const_add 1
    refine ((h1.sqrt hpos.ne').inv hs.ne').congr_deriv ?_
    simp only [rateMulti2, cellRateM, frameTerm, drive, diff_uniform, add_zero, zero_add, mul_one]
    rw [c35_violation_extra_force]
    rw [show (0 + 1) = 1 from rfl, Fin.sum_univ_one]
    have hsq := Real.sq_sqrt hpos.le
    have he : Real.exp (-(2 * t)) = Real.sqrt (1 + Real.exp (-(2 * t))) ^ 2 - 1 := by rw [hsq]; ring
    generalize Real.sqrt (1 + Real.exp (-(2 * t))) = r at *
    rw [he]
    field_simp
    ring }

/-- Two grains of equal weight that move as the equations say at time 0, as in `c139_violation_documented`. -/
example (st : Stencil) (eps dx dy s : ℝ) (N M : ℕ) :
    Moves2 1 st eps (3 / 2) 1 dx dy N M (fun _ _ _ => 1) (fun _ _ => .none)
      (fun t p _ _ => s + multiWell 2 (3 / 2) 1 (fun _ => s) p * t) 0 where
  per := fun _ _ => ⟨fun _ _ => rfl, fun _ _ => rfl⟩
  ok := fun _ _ => trivial
  moves := by
    intro p i j
    refine (((hasDerivAt_id' (0 : ℝ)).const_mul _).const_add s).congr_deriv ?_
    simp only [rateMulti2, cellRateM, frameTerm, drive, diff_uniform, mul_zero, add_zero, zero_add, mul_one]

/-- Liquid and solid with energies: a sample of two order parameters, both present, moving as the equations say at time 0. -/
example (st : Stencil) (eps gamma m dx dy fl fa : ℝ) (N M : ℕ) :
    Moves2 1 st eps gamma m dx dy N M (fun _ _ _ => 1) (fun _ _ => .two fl fa)
      (fun t p _ _ => 1 / 2 + (multiWell 2 gamma m (fun _ => 1 / 2) p + drive 1 (.two fl fa) (fun _ => 1 / 2) p) * t) 0 where
  per := fun _ _ => ⟨fun _ _ => rfl, fun _ _ => rfl⟩
  ok := fun _ _ => by simp [BulkOk, Fin.sum_univ_two]
  moves := by
    intro p i j
    refine (((hasDerivAt_id' (0 : ℝ)).const_mul _).const_add (1 / 2)).congr_deriv ?_
    simp only [rateMulti2, cellRateM, frameTerm, diff_uniform, mul_zero, add_zero, zero_add, mul_one]

end AMPE.GrainFlow.Props
