import Verif.Model.Alloy

/-!
# The preparatory programs

Programs in `drivers` that compute equilibria and mobility data before a run.  The thermodynamic functions are those of the external
library Thermo4PFM: the equilibrium solver is any function of temperature and starting guess that reports success and leaves its result
in the guess, the second derivative any function of the composition.
-/

namespace AMPE.Drivers

/-- `std::map<double, double>::insert`: ordered by key, an existing key keeps its value. -/
noncomputable def mapInsert (k v : ℝ) : List (ℝ × ℝ) → List (ℝ × ℝ)
  | [] => [(k, v)]
  | (a, b) :: m => if k < a then (k, v) :: (a, b) :: m else if a < k then (a, b) :: mapInsert k v m else (a, b) :: m

/-- The temperatures of the tables, drivers/plotEquilibriumCompositions.cc:111-116 (drivers/plotEquilibriumCompositionsTernary.cc:117-122). -/
noncomputable def temperature (low high : ℝ) (iT : ℕ) : ℝ :=
  let dT := (high - low) / 50
  low + iT * dT

/-- `found_ceq` after the four comparisons, drivers/plotEquilibriumCompositions.cc:119-123, drivers/computeCALPHADbinaryEquilibrium.cc:95-99,
drivers/computeMobilityZetaFactor.cc:109-113. -/
noncomputable def accept (found : Bool) (c0 c1 : ℝ) : Bool :=
  let f := found
  let f := if c0 > 1 then false else f
  let f := if c0 < 0 then false else f
  let f := if c1 > 1 then false else f
  let f := if c1 < 0 then false else f
  f

/-- `cafe.computeCeqT(temperature, &lceq[0])`: liquid and solid composition, overwritten in place. -/
abbrev Solver (C : Type) := ℝ → C → Bool × C

/-- Loop over the temperatures, drivers/plotEquilibriumCompositions.cc:113-137, `n` passes from index `iT`; the result of a pass is the
guess of the next.  `none` is `return 1` (no file is written). -/
noncomputable def sweep (solver : Solver (ℝ × ℝ)) (low high : ℝ) : ℕ → ℕ → ℝ × ℝ → List (ℝ × ℝ) → List (ℝ × ℝ) → Option (List (ℝ × ℝ) × List (ℝ × ℝ))
  | 0, _, _, cleq, cseq => some (cleq, cseq)
  | n + 1, iT, lceq, cleq, cseq =>
    let T := temperature low high iT
    let r := solver T lceq
    if accept r.1 r.2.1 r.2.2 then sweep solver low high n (iT + 1) r.2 (mapInsert r.2.1 T cleq) (mapInsert r.2.2 T cseq)
    else none

/-- `main` of drivers/plotEquilibriumCompositions.cc:31-168: the two blocks of `TvsC.dat`.  `newton` tells whether the input has a block
`NewtonSolver`; without it `copyDatabase` is called with a null pointer (lines 88-95; `assert(database)`, source/Database2JSON.cc:29). -/
noncomputable def plotEquilibrium (newton : Bool) (solver : Solver (ℝ × ℝ)) (low high : ℝ) (guess : ℝ × ℝ) : Option (List (ℝ × ℝ) × List (ℝ × ℝ)) :=
  if newton then sweep solver low high 50 0 guess [] [] else none

/-- Compositions of a ternary tie line: liquid, solid, fraction (drivers/plotEquilibriumCompositionsTernary.cc:101-110). -/
structure Tie where
  l0 : ℝ
  l1 : ℝ
  s0 : ℝ
  s1 : ℝ
  frac : ℝ

/-- The four tables of drivers/plotEquilibriumCompositionsTernary.cc:112-115. -/
structure Tables where
  l0 : List (ℝ × ℝ)
  l1 : List (ℝ × ℝ)
  s0 : List (ℝ × ℝ)
  s1 : List (ℝ × ℝ)

/-- drivers/plotEquilibriumCompositionsTernary.cc:119-146; only the compositions of the liquid are compared with 0 and 1 (lines 127-130). -/
noncomputable def sweepTernary (solver : Solver Tie) (low high : ℝ) : ℕ → ℕ → Tie → Tables → Option Tables
  | 0, _, _, t => some t
  | n + 1, iT, lceq, t =>
    let T := temperature low high iT
    let r := solver T lceq
    if accept r.1 r.2.l0 r.2.l1 then
      sweepTernary solver low high n (iT + 1) r.2
        ⟨mapInsert T r.2.l0 t.l0, mapInsert T r.2.l1 t.l1, mapInsert T r.2.s0 t.s0, mapInsert T r.2.s1 t.s1⟩
    else none

/-- `main` of drivers/plotEquilibriumCompositionsTernary.cc:34-196. -/
noncomputable def plotTernary (newton : Bool) (solver : Solver Tie) (low high : ℝ) (guess : Tie) : Option Tables :=
  if newton then sweepTernary solver low high 50 0 guess ⟨[], [], [], []⟩ else none

/-- What drivers/computeCALPHADbinaryEquilibrium.cc:101-118 prints: the equilibrium if there is one, both second derivatives, exit status. -/
structure Report where
  ceq : Option (ℝ × ℝ)
  d2L : ℝ
  d2S : ℝ
  status : ℕ

/-- `main` of drivers/computeCALPHADbinaryEquilibrium.cc:28-128.  Both calls of `computeSecondDerivativeFreeEnergy` get the pointer `lceq`
(lines 112-117), that is the composition `lceq[0]`. -/
noncomputable def binaryEquilibrium (newton : Bool) (solver : Solver (ℝ × ℝ)) (d2L d2S : ℝ → ℝ) (T : ℝ) (guess : ℝ × ℝ) : Option Report :=
  if newton then
    let r := solver T guess
    let lceq := r.2
    if accept r.1 lceq.1 lceq.2 then some ⟨some lceq, d2L lceq.1, d2S lceq.1, 0⟩
    else some ⟨none, d2L lceq.1, d2S lceq.1, 1⟩
  else none

/-- What drivers/computeMobilityZetaFactor.cc prints on the standard output, and the exit status. -/
structure ZetaReport where
  ceq : Option (ℝ × ℝ)
  d2 : ℝ
  diff : ℝ
  zeta : ℝ
  status : ℕ

/-- `main` of drivers/computeMobilityZetaFactor.cc:38-154 with a CALPHAD file.  `d2fdc2` is a vector of one zero that is filled only if the
equilibrium was found (lines 79, 109-127); the rest is printed in any case (lines 139-148). -/
noncomputable def zetaFactor (solver : Solver (ℝ × ℝ)) (d2L : ℝ → ℝ) (R D Q0 T : ℝ) (guess : ℝ × ℝ) : ZetaReport :=
  let r := solver T guess
  let lceq := r.2
  let found := accept r.1 lceq.1 lceq.2
  let d2fdc2 := if found then d2L lceq.1 else 0
  let diffCoeff := D * Real.exp (-Q0 / (R * T))
  let zeta := (lceq.1 - lceq.2) * d2fdc2 * (lceq.1 - lceq.2)
  let zeta := zeta / diffCoeff
  ⟨if found then some lceq else none, d2fdc2, diffCoeff, zeta, 0⟩

end AMPE.Drivers
