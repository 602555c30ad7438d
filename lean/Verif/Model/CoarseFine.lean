import Mathlib.Algebra.Order.Archimedean.Real.Basic

/-!
# Flux through the boundary between a fine and a coarse level

`efo_ewingfixfluxvardc2d`, `efo_ewingfixfluxcondc2d` (source/fortran/2d/ellipticfacops.m4:543-769),
`efo_ewingfixfluxvardc3d`, `efo_ewingfixfluxcondc3d` (source/fortran/3d/ellipticfacops.m4:697-1105), called by
`EllipticFACOps::ewingFixFlux` (source/EllipticFACOps.cc:1239-1346) from `computeFluxOnPatch` (1950-2026), and
`QuatFACOps::ewingFixFlux` (source/QuatFACOps.cc:1092-1168).

The routines correct the flux `D (u(i) - u(i-1)) / h` computed across the boundary when the ghost cells hold the value of the
coarse cell (`CONSTANT_REFINE`, source/EllipticFACOps.cc:612-616).  The routines with a constant coefficient are those with a
variable one with `xdc = ydc = dc`.  Simplifications: arrays are total functions; one component of the solution at a time.
-/

namespace AMPE.CoarseFine

/-- Values of `do j = b, e, r`. -/
def strided (b e r : ℤ) : List ℤ := (List.range ((e - b + r) / r).toNat).map fun k : ℕ => b + k * r

/-- Values of `do jp = 0, r-1`. -/
def offsets (r : ℤ) : List ℤ := (List.range r.toNat).map fun k : ℕ => (k : ℤ)

/-- The loops `do j = b, e, r; do jp = 0, r-1`. -/
def rows (b e r : ℤ) : List (ℤ × ℤ) := (strided b e r).flatMap fun j => (offsets r).map fun jp => (j, jp)

/-- The four loops of the 3D routines. -/
def quads (b1 e1 r1 b2 e2 r2 : ℤ) : List ((ℤ × ℤ) × (ℤ × ℤ)) :=
  (strided b1 e1 r1).flatMap fun k => (strided b2 e2 r2).flatMap fun j =>
    (offsets r1).flatMap fun kp => (offsets r2).map fun jp => ((k, kp), (j, jp))

/-- Assignments in a loop: entry `key a` is replaced by a function of its value. -/
def sweep {K A : Type} [DecidableEq K] (L : List A) (key : A → K) (val : A → ℝ → ℝ) (f : K → ℝ) : K → ℝ :=
  L.foldl (fun g a => Function.update g (key a) (val a (g (key a)))) f

/-- `tranwt`, `longwt`. -/
noncomputable def tranwt (r : ℤ) : ℝ := 1 / (1 + r)
noncomputable def longwt (r : ℤ) : ℝ := 2 * tranwt r

/-- Index of the point opposite to `p`: `ratio - p - 1`. -/
def opp (r p : ℤ) : ℤ := r - p - 1

/-- A boundary box: lower and upper corner. -/
structure Bdry2 where
  lo0 : ℤ
  up0 : ℤ
  lo1 : ℤ
  up1 : ℤ

/-- Arguments in 2D: patch, ratio to the coarser level, coefficients, solution with ghosts, spacing passed. -/
structure Arg2 where
  i0 : ℤ
  i1 : ℤ
  j0 : ℤ
  j1 : ℤ
  r0 : ℤ
  r1 : ℤ
  xdc : ℤ × ℤ → ℝ
  ydc : ℤ × ℤ → ℝ
  u : ℤ × ℤ → ℝ
  dx0 : ℝ
  dx1 : ℝ

structure Flux2 where
  x : ℤ × ℤ → ℝ
  y : ℤ × ℤ → ℝ

/-- The branches of source/fortran/2d/ellipticfacops.m4:583-654. -/
noncomputable def ewing2 (A : Arg2) (loc : ℕ) (b : Bdry2) (F : Flux2) : Flux2 :=
  match loc with
  | 0 => ⟨sweep (rows (max b.lo1 A.j0) (min b.up1 A.j1) A.r1) (fun a => (b.up0 + 1, a.1 + a.2))
      (fun a v => longwt A.r0 * v + tranwt A.r0 * A.xdc (b.up0 + 1, a.1 + a.2) *
        (A.u (b.up0 + 1, a.1 + opp A.r1 a.2) - A.u (b.up0 + 1, a.1 + a.2)) / A.dx0) F.x, F.y⟩
  | 1 => ⟨sweep (rows (max b.lo1 A.j0) (min b.up1 A.j1) A.r1) (fun a => (b.lo0, a.1 + a.2))
      (fun a v => longwt A.r0 * v - tranwt A.r0 * A.xdc (b.lo0, a.1 + a.2) *
        (A.u (b.lo0 - 1, a.1 + opp A.r1 a.2) - A.u (b.lo0 - 1, a.1 + a.2)) / A.dx0) F.x, F.y⟩
  | 2 => ⟨F.x, sweep (rows (max b.lo0 A.i0) (min b.up0 A.i1) A.r0) (fun a => (a.1 + a.2, b.up1 + 1))
      (fun a v => longwt A.r1 * v + tranwt A.r1 * A.ydc (a.1 + a.2, b.up1 + 1) *
        (A.u (a.1 + opp A.r0 a.2, b.up1 + 1) - A.u (a.1 + a.2, b.up1 + 1)) / A.dx1) F.y⟩
  | 3 => ⟨F.x, sweep (rows (max b.lo0 A.i0) (min b.up0 A.i1) A.r0) (fun a => (a.1 + a.2, b.lo1))
      (fun a v => longwt A.r1 * v - tranwt A.r1 * A.ydc (a.1 + a.2, b.lo1) *
        (A.u (a.1 + opp A.r0 a.2, b.lo1 - 1) - A.u (a.1 + a.2, b.lo1 - 1)) / A.dx1) F.y⟩
  | _ => F

/-- `compflux`: the flux before the correction, source/fortran/2d/ellipticfacops.m4:16-57 (see C43); `d` are the coefficients of
the component treated (`d_poisson_spec[depth]`, source/EllipticFACOps.cc:1974-1993), while the correction takes those of component 0
(1271-1315). -/
noncomputable def raw2 (A : Arg2) (dx dy : ℤ × ℤ → ℝ) : Flux2 where
  x := fun p => 1 / A.dx0 * dx p * (A.u p - A.u (p.1 - 1, p.2))
  y := fun p => 1 / A.dx1 * dy p * (A.u p - A.u (p.1, p.2 - 1))

structure Bdry3 where
  lo0 : ℤ
  up0 : ℤ
  lo1 : ℤ
  up1 : ℤ
  lo2 : ℤ
  up2 : ℤ

/-- Arguments in 3D. -/
structure Arg3 where
  i0 : ℤ
  i1 : ℤ
  j0 : ℤ
  j1 : ℤ
  k0 : ℤ
  k1 : ℤ
  r0 : ℤ
  r1 : ℤ
  r2 : ℤ
  xdc : ℤ × ℤ × ℤ → ℝ
  ydc : ℤ × ℤ × ℤ → ℝ
  zdc : ℤ × ℤ × ℤ → ℝ
  u : ℤ × ℤ × ℤ → ℝ
  dx0 : ℝ
  dx1 : ℝ
  dx2 : ℝ

structure Flux3 where
  x : ℤ × ℤ × ℤ → ℝ
  y : ℤ × ℤ × ℤ → ℝ
  z : ℤ × ℤ × ℤ → ℝ

/-- The branches of source/fortran/3d/ellipticfacops.m4:750-901. -/
noncomputable def ewing3 (A : Arg3) (loc : ℕ) (b : Bdry3) (F : Flux3) : Flux3 :=
  match loc with
  | 0 => ⟨sweep (quads (max b.lo2 A.k0) (min b.up2 A.k1) A.r2 (max b.lo1 A.j0) (min b.up1 A.j1) A.r1)
      (fun a => (b.up0 + 1, a.2.1 + a.2.2, a.1.1 + a.1.2))
      (fun a v => longwt A.r0 * v + tranwt A.r0 * A.xdc (b.up0 + 1, a.2.1 + a.2.2, a.1.1 + a.1.2) *
        (A.u (b.up0 + 1, a.2.1 + opp A.r1 a.2.2, a.1.1 + opp A.r2 a.1.2)
          - A.u (b.up0 + 1, a.2.1 + a.2.2, a.1.1 + a.1.2)) / A.dx0) F.x, F.y, F.z⟩
  | 1 => ⟨sweep (quads (max b.lo2 A.k0) (min b.up2 A.k1) A.r2 (max b.lo1 A.j0) (min b.up1 A.j1) A.r1)
      (fun a => (b.lo0, a.2.1 + a.2.2, a.1.1 + a.1.2))
      (fun a v => longwt A.r0 * v - tranwt A.r0 * A.xdc (b.lo0, a.2.1 + a.2.2, a.1.1 + a.1.2) *
        (A.u (b.lo0 - 1, a.2.1 + opp A.r1 a.2.2, a.1.1 + opp A.r2 a.1.2)
          - A.u (b.lo0 - 1, a.2.1 + a.2.2, a.1.1 + a.1.2)) / A.dx0) F.x, F.y, F.z⟩
  | 2 => ⟨F.x, sweep (quads (max b.lo0 A.i0) (min b.up0 A.i1) A.r0 (max b.lo2 A.k0) (min b.up2 A.k1) A.r2)
      (fun a => (a.1.1 + a.1.2, b.up1 + 1, a.2.1 + a.2.2))
      (fun a v => longwt A.r1 * v + tranwt A.r1 * A.ydc (a.1.1 + a.1.2, b.up1 + 1, a.2.1 + a.2.2) *
        (A.u (a.1.1 + opp A.r0 a.1.2, b.up1 + 1, a.2.1 + opp A.r2 a.2.2)
          - A.u (a.1.1 + a.1.2, b.up1 + 1, a.2.1 + a.2.2)) / A.dx1) F.y, F.z⟩
  | 3 => ⟨F.x, sweep (quads (max b.lo0 A.i0) (min b.up0 A.i1) A.r0 (max b.lo2 A.k0) (min b.up2 A.k1) A.r2)
      (fun a => (a.1.1 + a.1.2, b.lo1, a.2.1 + a.2.2))
      (fun a v => longwt A.r1 * v - tranwt A.r1 * A.ydc (a.1.1 + a.1.2, b.lo1, a.2.1 + a.2.2) *
        (A.u (a.1.1 + opp A.r0 a.1.2, b.lo1 - 1, a.2.1 + opp A.r2 a.2.2)
          - A.u (a.1.1 + a.1.2, b.lo1 - 1, a.2.1 + a.2.2)) / A.dx1) F.y, F.z⟩
  | 4 => ⟨F.x, F.y, sweep (quads (max b.lo0 A.i0) (min b.up0 A.i1) A.r0 (max b.lo1 A.j0) (min b.up1 A.j1) A.r1)
      (fun a => (a.1.1 + a.1.2, a.2.1 + a.2.2, b.up2 + 1))
      (fun a v => longwt A.r2 * v + tranwt A.r2 * A.zdc (a.1.1 + a.1.2, a.2.1 + a.2.2, b.up2 + 1) *
        (A.u (a.1.1 + opp A.r0 a.1.2, a.2.1 + opp A.r1 a.2.2, b.up2 + 1)
          - A.u (a.1.1 + a.1.2, a.2.1 + a.2.2, b.up2 + 1)) / A.dx2) F.z⟩
  | 5 => ⟨F.x, F.y, sweep (quads (max b.lo0 A.i0) (min b.up0 A.i1) A.r0 (max b.lo1 A.j0) (min b.up1 A.j1) A.r1)
      (fun a => (a.1.1 + a.1.2, a.2.1 + a.2.2, b.lo2))
      (fun a v => longwt A.r2 * v - tranwt A.r2 * A.zdc (a.1.1 + a.1.2, a.2.1 + a.2.2, b.lo2) *
        (A.u (a.1.1 + opp A.r0 a.1.2, a.2.1 + opp A.r1 a.2.2, b.lo2 - 1)
          - A.u (a.1.1 + a.1.2, a.2.1 + a.2.2, b.lo2 - 1)) / A.dx2) F.z⟩
  | _ => F

/-- `compflux` in 3D, source/fortran/3d/ellipticfacops.m4:17-75. -/
noncomputable def raw3 (A : Arg3) (dx dy dz : ℤ × ℤ × ℤ → ℝ) : Flux3 where
  x := fun p => 1 / A.dx0 * dx p * (A.u p - A.u (p.1 - 1, p.2.1, p.2.2))
  y := fun p => 1 / A.dx1 * dy p * (A.u p - A.u (p.1, p.2.1 - 1, p.2.2))
  z := fun p => 1 / A.dx2 * dz p * (A.u p - A.u (p.1, p.2.1, p.2.2 - 1))

/-- `EllipticFACOps::computeFluxOnPatch` in 2D with the boundary boxes of the patch: the correction is applied for "Ewing" on
levels above the coarsest, source/EllipticFACOps.cc:2020-2024; the other choices leave the flux alone. -/
noncomputable def facFlux2 (method : String) (ln lnMin : ℤ) (A : Arg2) (dx dy : ℤ × ℤ → ℝ) (bs : List (ℕ × Bdry2)) : Flux2 :=
  if method = "Ewing" ∧ lnMin < ln then bs.foldl (fun F b => ewing2 A b.1 b.2 F) (raw2 A dx dy) else raw2 A dx dy

/-- `QuatFACOps::computeFluxOnPatch`, source/QuatFACOps.cc:1440-1446, 1572-1578: same test, but the correction is not
implemented and ends the run (`none`, 1105). -/
noncomputable def quatFlux (method : String) (ln lnMin : ℤ) (raw : Flux2) : Option Flux2 :=
  if method = "Ewing" ∧ lnMin < ln then none else some raw

/-- The discretization of the orientation solver: the default unless the input has an entry, source/QuatFACOps.cc:70, 254-255. -/
def quatMethod (entry : Option String) : String := entry.getD "Ewing"

/-- Ghost values are filled by this operator, source/EllipticFACOps.cc:612-616, source/QuatFACOps.cc:494-498. -/
def refineOp (method : String) : String := if method = "Ewing" then "CONSTANT_REFINE" else method

end AMPE.CoarseFine
