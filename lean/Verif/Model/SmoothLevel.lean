import Verif.Model.Smoother

/-!
# Smoothing of a whole level, source/EllipticFACOps.cc:1067-1231

One process, one depth.  A level is a list of patches.  The values of all cells are one function; before each pass the
ghost cells of all patches are filled (`xeqScheduleGhostFillNoCoarse`), which is the parameter `fill`: it keeps the
cells of the level and sets those outside (physical boundary, coarser level).  A patch reads the filled values and
writes its own cells.  On several processes the loop stops when it would stop on each of them
(`AllReduce` of `not_converged`).
-/

namespace AMPE.SmoothLevel

open AMPE.Smoother

variable {ι Box : Type}

/-- The loop over patches of one colour, source/EllipticFACOps.cc:1119-1163 (red), 1167-1211 (black): `cp B` is
`computeFluxOnPatch` and `redOrBlackSmoothingOnPatch` on one patch.  The residual is returned through the pointer
`p_maxres`, which every patch overwrites (`*p_maxres = maxres`, source/EllipticFACOps.cc:2513); it starts at 0
(source/EllipticFACOps.cc:1116). -/
noncomputable def levelPass (inside : Box → ι → Prop) [∀ B p, Decidable (inside B p)]
    (cp : Box → (ι → ℝ) → (ι → ℝ) × ℝ) (fill : (ι → ℝ) → ι → ℝ) (Bs : List Box) (u : ι → ℝ) : (ι → ℝ) × ℝ :=
  let g := fill u
  Bs.foldl (fun s B => (fun p => if inside B p then (cp B g).1 p else s.1 p, (cp B g).2)) (g, 0)

/-- One sweep: red pass, black pass, `maxres = Max(red_maxres, blk_maxres)`, source/EllipticFACOps.cc:1116-1225. -/
noncomputable def sweep (inside : Box → ι → Prop) [∀ B p, Decidable (inside B p)]
    (cp : ℤ → Box → (ι → ℝ) → (ι → ℝ) × ℝ) (fill : (ι → ℝ) → ι → ℝ) (Bs : List Box) (u : ι → ℝ) : (ι → ℝ) × ℝ :=
  let r := levelPass inside (cp 0) fill Bs u
  let b := levelPass inside (cp 1) fill Bs r.1
  (b.1, max r.2 b.2)

/-- `for (isweep = 0; isweep < num_sweeps && not_converged; ++isweep)`, source/EllipticFACOps.cc:1111-1226: values and
number of sweeps done. -/
noncomputable def smooth (inside : Box → ι → Prop) [∀ B p, Decidable (inside B p)]
    (cp : ℤ → Box → (ι → ℝ) → (ι → ℝ) × ℝ) (fill : (ι → ℝ) → ι → ℝ) (tol : ℝ) (Bs : List Box) :
    ℕ → (ι → ℝ) → (ι → ℝ) × ℕ
  | 0, u => (u, 0)
  | n + 1, u =>
    let s := sweep inside cp fill Bs u
    if 0 ≤ tol ∧ s.2 ≤ tol then (s.1, 1)
    else
      let t := smooth inside cp fill tol Bs n s.1
      (t.1, t.2 + 1)

/-- Cells of a patch. -/
def inside2 (B : Box2) (p : ℤ × ℤ) : Prop := B.ifirst ≤ p.1 ∧ p.1 ≤ B.ilast ∧ B.jfirst ≤ p.2 ∧ p.2 ≤ B.jlast
instance (B : Box2) (p : ℤ × ℤ) : Decidable (inside2 B p) := by unfold inside2; infer_instance

/-- Cells of a patch in 3D. -/
def inside3 (B : Box3) (p : ℤ × ℤ × ℤ) : Prop :=
  B.ifirst ≤ p.1 ∧ p.1 ≤ B.ilast ∧ B.jfirst ≤ p.2.1 ∧ p.2.1 ≤ B.jlast ∧ B.kfirst ≤ p.2.2 ∧ p.2.2 ≤ B.klast
instance (B : Box3) (p : ℤ × ℤ × ℤ) : Decidable (inside3 B p) := by unfold inside3; infer_instance

/-- `smoothErrorByRedBlack`, source/EllipticFACOps.cc:1067-1231, 2D. -/
noncomputable def smooth2 (C : Coef2) (fill : (ℤ × ℤ → ℝ) → ℤ × ℤ → ℝ) (tol : ℝ) (Bs : List Box2) (n : ℕ)
    (u : ℤ × ℤ → ℝ) : (ℤ × ℤ → ℝ) × ℕ :=
  smooth inside2 (fun off B u => C.colourPass B off u) fill tol Bs n u

/-- Same in 3D. -/
noncomputable def smooth3 (C : Coef3) (fill : (ℤ × ℤ × ℤ → ℝ) → ℤ × ℤ × ℤ → ℝ) (tol : ℝ) (Bs : List Box3) (n : ℕ)
    (u : ℤ × ℤ × ℤ → ℝ) : (ℤ × ℤ × ℤ → ℝ) × ℕ :=
  smooth inside3 (fun off B u => C.colourPass B off u) fill tol Bs n u

/-- `solveCoarsestLevel` with `coarse_solver_choice = "redblack"`, source/EllipticFACOps.cc:1355-1387: tolerance and largest
number of sweeps from the input; the return value is 0 (converged) in every case. -/
noncomputable def coarsestRedBlack2 (C : Coef2) (fill : (ℤ × ℤ → ℝ) → ℤ × ℤ → ℝ) (tol : ℝ) (maxIter : ℕ) (Bs : List Box2)
    (u : ℤ × ℤ → ℝ) : (ℤ × ℤ → ℝ) × ℕ :=
  ((smooth2 C fill tol Bs maxIter u).1, 0)

end AMPE.SmoothLevel
