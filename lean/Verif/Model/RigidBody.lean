import Verif.Model.Flux
import Mathlib.Algebra.BigOperators.Group.List.Basic

/-!
# Rigid-body forces, motion and pair energies

Grains (order parameters) are numbered from 0 here; Fortran `p1`, `p2` are one more.  Fortran arrays `forces(.)`
and `total_energy(.)` are functions of the 1-based slot.  A loop that only executes statements
`a(k) = a(k) + v` with `k`, `v` independent of `a` is the list of its `(k, v)` in program order, applied by
`applyUpdates`.  A patch is the list of its cells with the values the routine reads there.
-/

namespace AMPE.RigidBody

open AMPE.Functions AMPE.Flux

/-- Executing the statements `a(k) = a(k) + v` in order. -/
noncomputable def applyUpdates (l : List (ℕ × ℝ)) (a : ℕ → ℝ) : ℕ → ℝ :=
  l.foldl (fun a u => fun k => if k = u.1 then a k + u.2 else a k) a

/-- What the force routines read on one patch: its cells, the force density of a pair of grains in a cell and
direction, and the cell weight. -/
structure FPatch (ι : Type) where
  cells : List ι
  dens : ℕ → ℕ → ι → ℕ → ℝ
  weight : ι → ℝ

/-- Pair force density of `wang_forces`, source/fortran/2d/forces.m4:124-150, in one cell and direction; a cell with
`pp ≤ 0` is skipped, which is the same as adding zero.  `interp_func(.,'p')` never stops. -/
noncomputable def wangDens2 (dx dy rhoe cthreshold : ℝ) (phi conc : ℕ → Field2) (nc : ℕ) (p1 p2 : ℕ) (c : ℤ × ℤ)
    (d : ℕ) : ℝ :=
  let pp := 0.5 + (phi p1 c.1 c.2 * phi p2 c.1 c.2 - cthreshold) * 10
  if pp > 0 then
    let cfactor := (interpFunc 'p' pp).getD 0
    let cdiff := min (∑ ic ∈ Finset.range nc, conc ic c.1 c.2) 1 - rhoe
    let diff := fun p => if d = 0 then 0.5 / dx * (phi p (c.1 + 1) c.2 - phi p (c.1 - 1) c.2)
      else 0.5 / dy * (phi p c.1 (c.2 + 1) - phi p c.1 (c.2 - 1))
    cdiff * cfactor * (diff p1 - diff p2)
  else 0

/-- The same in 3D, source/fortran/3d/forces.m4:122-158. -/
noncomputable def wangDens3 (dx dy dz rhoe cthreshold : ℝ) (phi conc : ℕ → Field3) (nc : ℕ) (p1 p2 : ℕ)
    (c : ℤ × ℤ × ℤ) (d : ℕ) : ℝ :=
  let pp := 0.5 + (phi p1 c.1 c.2.1 c.2.2 * phi p2 c.1 c.2.1 c.2.2 - cthreshold) * 10
  if pp > 0 then
    let cfactor := (interpFunc 'p' pp).getD 0
    let cdiff := min (∑ ic ∈ Finset.range nc, conc ic c.1 c.2.1 c.2.2) 1 - rhoe
    let diff := fun p => if d = 0 then 0.5 / dx * (phi p (c.1 + 1) c.2.1 c.2.2 - phi p (c.1 - 1) c.2.1 c.2.2)
      else if d = 1 then 0.5 / dy * (phi p c.1 (c.2.1 + 1) c.2.2 - phi p c.1 (c.2.1 - 1) c.2.2)
      else 0.5 / dz * (phi p c.1 c.2.1 (c.2.2 + 1) - phi p c.1 c.2.1 (c.2.2 - 1))
    cdiff * cfactor * (diff p1 - diff p2)
  else 0

/-- The statements of `wang_forces`, source/fortran/2d/forces.m4:116-159, source/fortran/3d/forces.m4:115-178, for `D` directions: pairs
`p2 < p1`, slots `offset1 + 1 + d` and `offset2 + 1 + d`. -/
noncomputable def wangUpdates {ι : Type} (D n : ℕ) (P : FPatch ι) : List (ℕ × ℝ) :=
  (List.range n).flatMap fun a => (List.range a).flatMap fun b => P.cells.flatMap fun c =>
    ((List.range D).map fun d => (D * (n * a + b) + (1 + d), P.dens a b c d * P.weight c))
      ++ (List.range D).map fun d => (D * (n * b + a) + (1 + d), -(P.dens a b c d * P.weight c))

/-- Force density of `phiphi_forces`, source/fortran/2d/forces.m4:50-60. -/
noncomputable def phiphiDens2 (dx dy gamma m : ℝ) (phi : ℕ → Field2) (p1 p2 : ℕ) (c : ℤ × ℤ) (d : ℕ) : ℝ :=
  let diff := if d = 0 then 1 / dx * (phi p2 (c.1 + 1) c.2 - phi p2 (c.1 - 1) c.2)
    else 1 / dy * (phi p2 c.1 (c.2 + 1) - phi p2 c.1 (c.2 - 1))
  phi p1 c.1 c.2 * phi p1 c.1 c.2 * phi p2 c.1 c.2 * (0.5 * gamma * m) * diff

/-- The statements of `phiphi_forces`, source/fortran/2d/forces.m4:44-70: `offset = NDIM*nphases*(p1-1)+p2*2-1`. -/
noncomputable def phiphiUpdates2 {ι : Type} (n : ℕ) (P : FPatch ι) : List (ℕ × ℝ) :=
  (List.range n).flatMap fun a => (List.range n).flatMap fun b => if a = b then [] else
    P.cells.flatMap fun c => (List.range 2).map fun d =>
      (2 * n * a + (b + 1) * 2 - 1 + d, P.dens a b c d * P.weight c)

/-- The statements of the 3D routine, source/fortran/3d/forces.m4:48-79: the same `offset`, three components, no weight. -/
noncomputable def phiphiUpdates3 {ι : Type} (n : ℕ) (P : FPatch ι) : List (ℕ × ℝ) :=
  (List.range n).flatMap fun a => (List.range n).flatMap fun b => if a = b then [] else
    P.cells.flatMap fun c => (List.range 3).map fun d =>
      (3 * n * a + (b + 1) * 2 - 1 + d, P.dens a b c d)

/-- `RigidBodyForces::evaluatePairForces`, source/RigidBodyForces.cc:40-94: `upd` is the patch routine, `ranks` the
patches of each process.  The local array is unpacked with a running `count`
(`d_forces[i][j][d] = forces[D*(n*i+j)+d]`, 0-based, hence slot `D*(n*i+j)+(1+d)`), scaled, and summed over
processes. -/
noncomputable def pairForces {ι : Type} (D n : ℕ) (upd : FPatch ι → List (ℕ × ℝ)) (stiffness : ℝ)
    (ranks : List (List (FPatch ι))) (i j d : ℕ) : ℝ :=
  (ranks.map fun patches =>
    patches.foldl (fun a P => applyUpdates (upd P) a) (fun _ => 0) (D * (n * i + j) + (1 + d)) * stiffness).sum

/-- Summing up the force on grain `i`: source/QuatIntegrator.cc:2497-2519 with no phase B (`nop = norderpA`,
`norderp - 1 = norderpA`). -/
noncomputable def grainForce (n : ℕ) (external : ℕ → ℝ) (F : ℕ → ℕ → ℕ → ℝ) (i d : ℕ) : ℝ :=
  external d + ∑ j ∈ Finset.range n, if j ≠ i then F i j d else 0

/-- The same loop as memory accesses: `d_rb_forces` has `nA + nB` entries, `d_forces` is `nA × nA`
(source/RigidBodyForces.cc:31-34); the loop reads `d_forces[i][j]` for `i < norderp - 1`, `j < nA + nB`, `j ≠ i`.
`none` is an access outside a vector. -/
noncomputable def grainForceChecked (nA nB norderp : ℕ) (external : ℕ → ℝ) (F : ℕ → ℕ → ℕ → ℝ) (d : ℕ) :
    Option (List ℝ) :=
  (List.range (norderp - 1)).mapM fun i =>
    (List.range (nA + nB)).foldlM (fun acc j =>
      if j ≠ i then (if i < nA ∧ j < nA ∧ i < nA + nB then some (acc + F i j d) else none) else some acc) (external d)

/-- `RigidBodyMotionRHS::addRHS`, source/RigidBodyMotionRHS.cc:43-46: velocity of a grain. -/
noncomputable def velocity (mobility volume force : ℝ) : ℝ := force * (mobility / volume)

/-- `addrbmotion`, source/fortran/2d/rbmotion.m4:42-57, what is added to `rhs` in one cell. -/
noncomputable def rbMotion2 (dx dy v0 v1 : ℝ) (u : Field2) (i j : ℤ) : ℝ :=
  0 - 0.5 * v0 / dx * (u (i + 1) j - u (i - 1) j) - 0.5 * v1 / dy * (u i (j + 1) - u i (j - 1))

/-- `RigidBodyMotionConcRHS::addRHS`, source/RigidBodyMotionConcRHS.cc:83-98: every grain's term goes into the single
composition slot. -/
noncomputable def rbMotionConc2 (n : ℕ) (dx dy : ℝ) (v : ℕ → ℕ → ℝ) (phi : ℕ → Field2) (rhs : ℝ) (i j : ℤ) : ℝ :=
  (List.range n).foldl (fun r g => r + rbMotion2 dx dy (v g 0) (v g 1) (phi g) i j) rhs

/-! ## Pair energies -/

/-- What `phiphi_interfacialenergy` reads on one patch. -/
structure EPatch (ι : Type) where
  cells : List ι
  phi : ℕ → ι → ℝ
  weight : ι → ℝ

/-- `phiphi_interfacialenergy`, source/fortran/2d/quatenergy.m4:525-547 (3d the same): for each pair the slot is set to
zero, then the patch's cells are added. -/
noncomputable def pairEnergyPatch {ι : Type} (n : ℕ) (gamma m : ℝ) (P : EPatch ι) (total : ℕ → ℝ) : ℕ → ℝ :=
  (List.range n).foldl (fun t a => (List.range n).foldl (fun t b =>
    P.cells.foldl (fun t c => fun k => if k = n * a + (b + 1) then
        t k + P.phi a c * P.phi a c * P.phi b c * P.phi b c * (0.5 * gamma * m) * P.weight c else t k)
      (fun k => if k = n * a + (b + 1) then 0 else t k)) t) total

/-- Energy density output in one cell, source/fortran/2d/quatenergy.m4:517-523, 533-536: assigned, not accumulated, for every
pair in turn. -/
noncomputable def pairEnergyCell {ι : Type} (n : ℕ) (gamma m : ℝ) (P : EPatch ι) (c : ι) : ℝ :=
  (List.range n).foldl (fun e a => (List.range n).foldl (fun _ b =>
    P.phi a c * P.phi a c * P.phi b c * P.phi b c * (0.5 * gamma * m)) e) 0

/-- `MultiOrderPEnergyEvaluationStrategy::evaluatePairEnergy`,
source/MultiOrderPEnergyEvaluationStrategy.cc:32-52: one array passed to every patch of the process, then a sum over
processes. -/
noncomputable def pairEnergy {ι : Type} (n : ℕ) (gamma m : ℝ) (ranks : List (List (EPatch ι))) (k : ℕ) : ℝ :=
  (ranks.map fun patches => patches.foldl (fun t P => pairEnergyPatch n gamma m P t) (fun _ => 0) k).sum

end AMPE.RigidBody
