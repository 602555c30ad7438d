import Mathlib.Algebra.Order.Archimedean.Real.Basic
import Mathlib.Analysis.SpecialFunctions.Pow.Real

/-!
# Multilevel solver: cycles and outer iteration (source/samrai/FACPreconditioner.cc)

The solver knows its operators only through the interface `FACOperatorStrategy`.  A vector is a family of level data; each
operator writes one level of one vector and reads what is listed in its type (`EllipticFACOps`: solveCoarsestLevel
source/EllipticFACOps.cc:1356, smoothError :1047, computeCompositeResidualOnLevel :1593, restrictResidual :974,
restrictSolution :948, prolongErrorAndCorrect :994, computeResidualNorm :1760; same in `QuatFACOps`).  The operators share one
piece of state: the fluxes on the border of a level, written by the residual of that level and read by the residual of the
next coarser one (source/EllipticFACOps.cc:1692-1694, 1726-1741).  Ghost values are not part of the data, being filled by
each operator before use.  `signalingNaN` and timers are left out; `postprocessOneCycle` only logs
(source/EllipticFACOps.cc:913-940).
-/

namespace AMPE.FACSolve

/-- A vector of the hierarchy: one value of type `L` per level. -/
abbrev Vec (L : Type) := ℤ → L

/-- `FACOperatorStrategy`.  Every field returns the new data of the level written. -/
structure Ops (L F : Type) where
  /-- `solveCoarsestLevel(e, r, ln)` -/
  solveCoarsest : Vec L → L → ℤ → L
  /-- `smoothError(e, r, ln, sweeps)` -/
  smooth : Vec L → L → ℤ → ℤ → L
  /-- `computeCompositeResidualOnLevel(out, u, f, ln, homogeneous_bc)`; the last argument is the border flux of level
  `ln + 1`, the second value returned the border flux of level `ln` -/
  residual : Vec L → Vec L → ℤ → Bool → F → L × F
  /-- `restrictResidual(s, d, ln)`: data of `s` on level `ln + 1`, of `d` on level `ln` -/
  restrictRes : L → L → ℤ → L
  /-- `restrictSolution(u, u, ln)` -/
  restrictSol : L → L → ℤ → L
  /-- `prolongErrorAndCorrect(e, e, ln)`: data of levels `ln - 1` and `ln` -/
  prolong : L → L → ℤ → L
  /-- `computeResidualNorm(r, finest, coarsest)` -/
  norm : Vec L → ℝ
  /-- addition and zero of level data (`d_controlled_level_ops`) -/
  add : L → L → L
  zero : L

/-- Parameters read by `getFromInput` or given by setters, source/samrai/FACPreconditioner.cc:75-110. -/
structure Par where
  maxIter : ℤ
  tol : ℝ
  relTol : ℝ
  pre : ℤ
  post : ℤ
  lmin : ℤ
  /-- finest level = `lmin + n` -/
  n : ℕ

/-- Work data: error, residual, temporary residual, temporary error, border fluxes. -/
structure St (L F : Type) where
  e : Vec L
  r : Vec L
  tmp : Vec L
  tmpE : Vec L
  o : Vec F

variable {L F : Type}

/-- Write level `ln`. -/
def put (v : Vec L) (ln : ℤ) (x : L) : Vec L := Function.update v ln x

/-- Steps 2 and 3 before the recursion, source/samrai/FACPreconditioner.cc:452-459; also the body of the descent of
`facCycle`, :597-616. -/
def down (o : Ops L F) (p : Par) (ln : ℤ) (s : St L F) : St L F :=
  let e := put s.e ln (o.smooth s.e (s.r ln) ln p.pre)
  let q := o.residual e s.r ln true (s.o (ln + 1))
  let tmp := put s.tmp ln q.1
  { s with e := e, tmp := tmp, o := put s.o ln q.2, r := put s.r (ln - 1) (o.restrictRes (tmp ln) (s.r (ln - 1)) (ln - 1)) }

/-- Prolongation and step 4, source/samrai/FACPreconditioner.cc:463-466; also :634-647. -/
def up (o : Ops L F) (p : Par) (ln : ℤ) (s : St L F) : St L F :=
  let e := put s.e ln (o.prolong (s.e (ln - 1)) (s.e ln) ln)
  { s with e := put e ln (o.smooth e (s.r ln) ln p.post) }

/-- `solveCoarsestLevel(e, r, lmin)`. -/
def bottom (o : Ops L F) (p : Par) (s : St L F) : St L F :=
  { s with e := put s.e p.lmin (o.solveCoarsest s.e (s.r p.lmin) p.lmin) }

/-- `facCycle_Recursive` on level `lmin + n`, source/samrai/FACPreconditioner.cc:431-468. -/
def recursive (o : Ops L F) (p : Par) : ℕ → St L F → St L F
  | 0, s => bottom o p s
  | n + 1, s => up o p (p.lmin + (n + 1 : ℕ)) (recursive o p n (down o p (p.lmin + (n + 1 : ℕ)) s))

/-- Descent of `facCycle`: `for (ln = lmax; ln > lmin; --ln)`. -/
def descent (o : Ops L F) (p : Par) : ℕ → St L F → St L F
  | 0, s => s
  | n + 1, s => descent o p n (down o p (p.lmin + (n + 1 : ℕ)) s)

/-- Ascent of `facCycle`: `for (ln = lmin; ln <= lmax; ++ln)`. -/
def ascent (o : Ops L F) (p : Par) : ℕ → St L F → St L F
  | 0, s => bottom o p s
  | n + 1, s => up o p (p.lmin + (n + 1 : ℕ)) (ascent o p n s)

/-- `facCycle`, source/samrai/FACPreconditioner.cc:587-652. -/
def pernice (o : Ops L F) (p : Par) (n : ℕ) (s : St L F) : St L F := ascent o p n (descent o p n s)

/-- Steps 2a-2c (and 4a-4c) of `facCycle_McCormick`, source/samrai/FACPreconditioner.cc:506-531, 560-580. -/
def correct (o : Ops L F) (ln sweeps : ℤ) (s : St L F) : St L F :=
  let q := o.residual s.e s.r ln true (s.o (ln + 1))
  let tmp := put s.tmp ln q.1
  let tmpE := put s.tmpE ln o.zero
  let tmpE := put tmpE ln (o.smooth tmpE (tmp ln) ln sweeps)
  { s with tmp := tmp, tmpE := tmpE, o := put s.o ln q.2, e := put s.e ln (o.add (s.e ln) (tmpE ln)) }

/-- Steps 3a, 3b: residual of the fine level restricted *into the temporary residual*, error of the coarser level set to
zero, source/samrai/FACPreconditioner.cc:532-549. -/
def mcDown (o : Ops L F) (ln : ℤ) (s : St L F) : St L F :=
  let q := o.residual s.e s.r ln true (s.o (ln + 1))
  let tmp := put s.tmp ln q.1
  { s with
    o := put s.o ln q.2
    tmp := put tmp (ln - 1) (o.restrictRes (tmp ln) (tmp (ln - 1)) (ln - 1))
    e := put s.e (ln - 1) o.zero }

/-- `facCycle_McCormick`, source/samrai/FACPreconditioner.cc:476-582. -/
def mcCormick (o : Ops L F) (p : Par) : ℕ → St L F → St L F
  | 0, s => bottom o p s
  | n + 1, s =>
    let ln := p.lmin + (n + 1 : ℕ)
    let s := mcDown o ln (correct o ln p.pre s)
    let s := mcCormick o p n s
    let s := { s with e := put s.e ln (o.prolong (s.e (ln - 1)) (s.e ln) ln) }
    correct o ln p.post s

/-- `d_algorithm_choice`; any other string does nothing, source/samrai/FACPreconditioner.cc:340-350. -/
inductive Alg | default | mccormick | pernice | other

def cycle (o : Ops L F) (p : Par) : Alg → St L F → St L F
  | .default, s => recursive o p p.n s
  | .mccormick, s => mcCormick o p p.n s
  | .pernice, s => pernice o p p.n s
  | .other, s => s

/-- `restrictSolution` on the levels `lmin + n - 1 .. lmin`, source/samrai/FACPreconditioner.cc:366-368. -/
def sync (o : Ops L F) (lmin : ℤ) : ℕ → Vec L → Vec L
  | 0, u => u
  | n + 1, u => sync o lmin n (put u (lmin + n) (o.restrictSol (u (lmin + n + 1)) (u (lmin + n)) (lmin + n)))

/-- Loop of `computeFullCompositeResidual`, source/samrai/FACPreconditioner.cc:667-675: solution, residual, border fluxes. -/
def fullLoop (o : Ops L F) (lmin : ℤ) (f : Vec L) : ℕ → Vec L × Vec L × Vec F → Vec L × Vec L × Vec F
  | 0, x => x
  | n + 1, x =>
    let ln := lmin + n
    let u := put x.1 ln (o.restrictSol (x.1 (ln + 1)) (x.1 ln) ln)
    let q := o.residual u f ln false (x.2.2 (ln + 1))
    let r := put x.2.1 ln q.1
    fullLoop o lmin f n (u, put r ln (o.restrictRes (r (ln + 1)) (r ln) ln), put x.2.2 ln q.2)

/-- `computeFullCompositeResidual`, source/samrai/FACPreconditioner.cc:661-684: updated solution, residual, border fluxes
(the norm of the residual is returned). -/
def full (o : Ops L F) (p : Par) (f u r : Vec L) (g : Vec F) : Vec L × Vec L × Vec F :=
  let ln := p.lmin + p.n
  let q := o.residual u f ln false (g (ln + 1))
  fullLoop o p.lmin f p.n (u, put r ln q.1, put g ln q.2)

/-- State of the outer loop of `solveSystem`. -/
structure Outer (L F : Type) where
  u : Vec L
  w : St L F
  norm : ℝ
  /-- `d_number_iterations` -/
  k : ℕ
  /-- `d_convergence_factor[0..k-1]` -/
  factors : List ℝ
  net : ℝ
  avg : ℝ

/-- `u += e` on the levels `lmin..lmax`. -/
def addErr (o : Ops L F) (p : Par) (u e : Vec L) : Vec L :=
  fun ln => if p.lmin ≤ ln ∧ ln ≤ p.lmin + p.n then o.add (u ln) (e ln) else u ln

/-- One pass of the `do` loop, source/samrai/FACPreconditioner.cc:325-405; `n0` is `initial_residual_norm`. -/
noncomputable def step (o : Ops L F) (p : Par) (a : Alg) (f : Vec L) (n0 : ℝ) (x : Outer L F) : Outer L F :=
  let w := cycle o p a { x.w with e := fun _ => o.zero }
  let u := sync o p.lmin p.n (addErr o p x.u w.e)
  let ur := full o p f u w.r w.o
  let nn := o.norm ur.2.1
  let net := nn / (n0 + 1e-20)
  { u := ur.1, w := { w with r := ur.2.1, o := ur.2.2 }, norm := nn, k := x.k + 1,
    factors := x.factors ++ [if x.norm ≠ 0 then nn / x.norm else 0],
    net := net, avg := net ^ ((1 : ℝ) / ((x.k + 1 : ℕ) : ℝ)) }

/-- `do ... while (norm > tol && k < max_iterations)`; the first argument is a bound on the number of passes left. -/
noncomputable def loop (o : Ops L F) (p : Par) (a : Alg) (f : Vec L) (n0 tol : ℝ) : ℕ → Outer L F → Outer L F
  | 0, x => step o p a f n0 x
  | n + 1, x =>
    let y := step o p a f n0 x
    if y.norm > tol ∧ (y.k : ℤ) < p.maxIter then loop o p a f n0 tol n y else y

/-- `effective_residual_tolerance`, source/samrai/FACPreconditioner.cc:307-314. -/
noncomputable def effTol (o : Ops L F) (p : Par) (f : Vec L) : ℝ :=
  if p.relTol ≥ 0 then
    let tmp := o.norm f * p.relTol
    if p.tol < tmp then tmp else p.tol
  else p.tol

/-- State before the loop, source/samrai/FACPreconditioner.cc:290-321; `w0` is the scratch data of the previous solve. -/
noncomputable def start (o : Ops L F) (p : Par) (f u : Vec L) (w0 : St L F) : Outer L F :=
  let ur := full o p f u (fun _ => o.zero) w0.o
  { u := ur.1, w := { w0 with e := fun _ => o.zero, tmpE := fun _ => o.zero, r := ur.2.1, o := ur.2.2 },
    norm := o.norm ur.2.1, k := 0, factors := [], net := 0, avg := 0 }

/-- `solveSystem`, source/samrai/FACPreconditioner.cc:267-424: final state and returned value. -/
noncomputable def solve (o : Ops L F) (p : Par) (a : Alg) (f u : Vec L) (w0 : St L F) : Outer L F × Bool :=
  let x := start o p f u w0
  let y := loop o p a f x.norm (effTol o p f) p.maxIter.toNat x
  (y, decide (y.norm < effTol o p f))

end AMPE.FACSolve
