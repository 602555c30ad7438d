import Mathlib.Analysis.SpecialFunctions.Sqrt
import Mathlib.Analysis.SpecialFunctions.Exp
import Mathlib.Algebra.BigOperators.Fin
import Verif.Model.Functions
import Verif.Model.PairWeights

/-!
# Alloy driving forces and Kim's phase mobility

The driving force that the free energy strategies add to the phase equation of an alloy, and the phase mobilities of
the `KimMobilityStrategy` classes.  The molar free energies and their derivatives come from the external library
Thermo4PFM; they are parameters (`fL`, `dfL`, ... below).  `d_with_third_phase` is never set
(source/QuatModelParameters.cc:120, source/QuatIntegrator.cc:228), so the third-phase branches of the two-phase strategies are left
out.
-/

namespace AMPE.Alloy

open AMPE.Functions

/-- `ConstantMolarVolumeStrategy`, source/ConstantMolarVolumeStrategy.h:25-26, and the conversion factors of
`QuadraticFreeEnergyStrategy`: J/mol to pJ/um^3. -/
noncomputable def invVm (vm : ℝ) : ℝ := 1.0e-6 / vm

/-- Value added to the phase right-hand side by `QuadraticFreeEnergyStrategy::addDrivingForceOnPatch`,
source/QuadraticFreeEnergyStrategy.cc:500-511 with `computeMu` (519-530): the chemical potential is that of the liquid.
`ty` is the energy interpolation character, `fl`, `fa` the stored phase energies (already converted). -/
noncomputable def driveQuadratic (ty : Char) (vmL : ℝ) (dfL : ℝ → ℝ) (phi fl fa cl ca : ℝ) : Option ℝ := do
  let mu := dfL cl * invVm vmL
  let hp ← derivInterpFunc ty phi
  return hp * (fl - fa - mu * (cl - ca))

/-- `CALPHADFreeEnergyStrategyBinary::addDrivingForceOnPatch`, source/CALPHADFreeEnergyStrategyBinary.cc:638-663 with
`computeMuA` (672-683): the chemical potential is that of phase A.  `KKSdiluteBinary::addDrivingForceOnPatch` is the
same expression. -/
noncomputable def driveCalphad (ty : Char) (vmA : ℝ) (dfA : ℝ → ℝ) (phi fl fa cl ca : ℝ) : Option ℝ := do
  let mu := dfA ca * invVm vmA
  let hp ← derivInterpFunc ty phi
  return hp * (fl - fa - mu * (cl - ca))

/-- `CALPHADFreeEnergyStrategyTernary::addDrivingForceOnPatch`, source/CALPHADFreeEnergyStrategyTernary.cc:546-566;
`dfA` gives the two chemical potentials of phase A. -/
noncomputable def driveTernary (ty : Char) (vmA : ℝ) (dfA : ℝ × ℝ → ℝ × ℝ) (phi fl fa : ℝ) (cl ca : ℝ × ℝ) :
    Option ℝ := do
  let mu0 := (dfA ca).1 * invVm vmA
  let mu1 := (dfA ca).2 * invVm vmA
  let hp ← derivInterpFunc ty phi
  return hp * (fl - fa - mu0 * (cl.1 - ca.1) - mu1 * (cl.2 - ca.2))

/-- Force of `QuadraticFreeEnergyStrategyMultiOrder::addDrivingForceOnPatch` on order parameter `p`
(`rhs -= ...`), two phases, `n + 1` order parameters with the liquid last; `dfs = fa - mu*ca`, `dfl = fl - mu*cl`. -/
noncomputable def driveMultiOrder (n : ℕ) (dfs dfl : ℝ) (phi : Fin (n + 1) → ℝ) (p : Fin (n + 1)) : ℝ :=
  let s := ∑ k : Fin n, phi k.castSucc * phi k.castSucc
  let l := phi (Fin.last n) * phi (Fin.last n)
  let sum2inv := 1 / (l + s)
  let hs := s * sum2inv
  let hl := l * sum2inv
  if p = Fin.last n then 0 - 2 * phi (Fin.last n) * (hs * dfl - hs * dfs) * sum2inv
  else 0 - 2 * phi p * (hl * dfs - hl * dfl) * sum2inv

/-- Solid fraction used for the phase concentrations by `EquilibriumPhaseConcentrationsBinaryMultiOrder`,
source/EquilibriumPhaseConcentrationsBinaryMultiOrder.cc:113-119: interpolation function of the sum of the solid order
parameters. -/
noncomputable def solidFraction (ty : Char) (n : ℕ) (phi : Fin (n + 1) → ℝ) : Option ℝ :=
  interpFunc ty (∑ k : Fin n, phi k.castSucc)

/-! ## Kim's mobility -/

/-- The interpolation types distinguished by `kks_mobility_factor`. -/
inductive InterpType | pbg | harmonic | other
  deriving DecidableEq

/-- `kks_mobility_factor`, source/KKStools.cc:13-30; `none` is the `TBOX_ERROR`. -/
noncomputable def kksMobilityFactor (ty : InterpType) (epsilon well : ℝ) : Option ℝ :=
  match ty with
  | .pbg => some (16 * well / (3 * epsilon * epsilon * (47 / 60)))
  | .harmonic => some (16 * well / (3 * epsilon * epsilon * 0.5))
  | .other => none

/-- Constructor of `KimMobilityStrategyFiniteMob`, source/KimMobilityStrategyFiniteMob.cc:34-36. -/
noncomputable def kimAlpha (epsilon well interfaceMobility : ℝ) : ℝ :=
  let xi := epsilon / Real.sqrt (16 * well)
  3 * Real.sqrt 2 * xi / interfaceMobility

/-- `KimMobilityStrategyFiniteMob::evaluateMobility`, source/KimMobilityStrategyFiniteMob.h. -/
noncomputable def mobFinite (epsilon well interfaceMobility : ℝ) : ℝ := 1 / kimAlpha epsilon well interfaceMobility

/-- Input of Kim's mobility from the data base: `d_zetaTref` and the three polynomial coefficients
(source/QuatModelParameters.cc:1122-1153). -/
structure Zeta where
  tref : ℝ
  z0 : ℝ
  z1 : ℝ
  z2 : ℝ

/-- `zetaFactorLA` and `zetaFactorLB`, source/QuatModelParameters.h:476-492. -/
noncomputable def Zeta.eval (z : Zeta) (temp : ℝ) : ℝ :=
  if z.tref < 0 then -1 else z.z0 + z.z1 * (temp - z.tref) + z.z2 * (temp - z.tref) * (temp - z.tref)

/-- Lines 65-77 of `KimMobilityStrategyInfMob::evaluateMobility` (same as 66-77 of the `AntiTrap` class):
the zeta factor in internal units. `d2` is the array filled by `computeSecondDerivativeFreeEnergy`, read at `2*i+j`;
`none` when the index is beyond the `n*n` entries. -/
noncomputable def zetaFactor (z : Zeta) (n : ℕ) (R D Q0 mv temp : ℝ) (d2 : ℕ → ℝ) (cl cs : ℕ → ℝ) : Option ℝ :=
  if z.eval temp < 0 then
    if ∀ i < n, ∀ j < n, 2 * i + j < n * n then
      let DL := D * Real.exp (-Q0 / (R * temp))
      let zeta := ∑ i ∈ Finset.range n, ∑ j ∈ Finset.range n, (cl i - cs i) * d2 (2 * i + j) * (cl j - cs j)
      some (zeta / DL * (1.0e-6 / mv))
    else none
  else some (z.eval temp * (1.0e-6 / mv))

/-- `KimMobilityStrategyInfMob::evaluateMobility`, source/KimMobilityStrategyInfMob.cc:49-83. -/
noncomputable def mobInf (ty : InterpType) (epsilon well : ℝ) (z : Zeta) (n : ℕ) (R D Q0 mv temp : ℝ) (d2 : ℕ → ℝ)
    (cl cs : ℕ → ℝ) : Option ℝ := do
  let factor ← kksMobilityFactor ty epsilon well
  let zf ← zetaFactor z n R D Q0 mv temp d2 cl cs
  return factor / zf

/-- `KimMobilityStrategyFiniteMobAntiTrap::evaluateMobility`, source/KimMobilityStrategyFiniteMobAntiTrap.cc:43-80. -/
noncomputable def mobAntiTrap (ty : InterpType) (epsilon well interfaceMobility : ℝ) (z : Zeta) (n : ℕ)
    (R D Q0 mv temp : ℝ) (d2 : ℕ → ℝ) (cl cs : ℕ → ℝ) : Option ℝ := do
  let factor ← kksMobilityFactor ty epsilon well
  let beta := 1 / factor
  let alpha := kimAlpha epsilon well interfaceMobility
  let zf ← zetaFactor z n R D Q0 mv temp d2 cl cs
  return 1 / (alpha + beta * zf)

/-- `KimMobilityStrategyInfMob3Phases::evaluateMobility`, source/KimMobilityStrategyInfMob3Phases.cc:45-111 (interpolation
type FOLCHPLAPP2005, i.e. PBG).  `none` when an assertion fails or the weights are not defined. -/
noncomputable def mob3 (epsilon well : ℝ) (zLA zLB : Zeta) (mv temp : ℝ) (phi : Fin 3 → ℝ) : Option ℝ := do
  let factor ← kksMobilityFactor .pbg epsilon well
  let za := zLA.eval temp
  let zb := zLB.eval temp
  if 0 < za ∧ 0 < zb then
    let mobLA := factor / (za * (1.0e-6 / mv))
    let mobLB := factor / (zb * (1.0e-6 / mv))
    let mobAB := 0.5 * (mobLA + mobLB)
    let w ← PairWeights.computeWeights3Pairs phi
    return w.1 * mobLA + w.2.1 * mobLB + w.2.2 * mobAB
  else none

/-! ## The patch loop of `KimMobilityStrategy::update` -/

/-- One evaluation of the mobility: cell, and the three array offsets used. -/
structure Visit where
  i : ℤ
  j : ℤ
  k : ℤ
  te : ℤ
  ci : ℤ
  mo : ℤ

/-- Interior box of a patch (inclusive bounds). -/
structure Box3 where
  lo0 : ℤ
  lo1 : ℤ
  lo2 : ℤ
  n0 : ℕ
  n1 : ℕ
  n2 : ℕ

/-- Offset of a cell in the array of a cell variable with ghost width `g` on the box `b`: SAMRAI stores the ghost box
with the first index fastest. -/
def offset (b : Box3) (g : ℤ) (i j k : ℤ) : ℤ :=
  (i - (b.lo0 - g)) + (b.n0 + 2 * g) * (j - (b.lo1 - g)) + (b.n0 + 2 * g) * (b.n1 + 2 * g) * (k - (b.lo2 - g))

/-- Lines 273-292: the innermost loop, `m` cells left. -/
def walkRow (i j k te ci mo : ℤ) : ℕ → List Visit × ℤ × ℤ × ℤ
  | 0 => ([], te, ci, mo)
  | m + 1 =>
    let r := walkRow (i + 1) j k (te + 1) (ci + 1) (mo + 1) m
    (⟨i, j, k, te, ci, mo⟩ :: r.1, r.2)

/-- Lines 272-297: the middle loop, `m` rows left; `skipT = 2 * (gT - gM)`, `skipC = 2 * (gC - gM)`. -/
def walkPlane (skipT skipC : ℤ) (nx : ℕ) (i0 j k te ci mo : ℤ) : ℕ → List Visit × ℤ × ℤ × ℤ
  | 0 => ([], te, ci, mo)
  | m + 1 =>
    let r := walkRow i0 j k te ci mo nx
    let s := walkPlane skipT skipC nx i0 (j + 1) k (r.2.1 + skipT) (r.2.2.1 + skipC) r.2.2.2 m
    (r.1 ++ s.1, s.2)

/-- Lines 271-304: the outer loop. -/
def walkAll (skipT skipC planeT planeC : ℤ) (nx ny : ℕ) (i0 j0 k te ci mo : ℤ) : ℕ → List Visit
  | 0 => []
  | m + 1 =>
    let r := walkPlane skipT skipC nx i0 j0 k te ci mo ny
    r.1 ++ walkAll skipT skipC planeT planeC nx ny i0 j0 (k + 1) (r.2.1 + planeT) (r.2.2.1 + planeC) r.2.2.2 m

/-- `KimMobilityStrategy::update`, source/KimMobilityStrategy.cc:226-305, in 3D: the cells visited and the offsets used in the
temperature (ghost width `gT`), phase concentration (`gC`) and mobility (`gM`) arrays. -/
def kimVisits (b : Box3) (gT gC gM : ℕ) : List Visit :=
  let nx := b.n0 + 2 * gM
  let ny := b.n1 + 2 * gM
  let nz := b.n2 + 2 * gM
  let incjT : ℤ := b.n0 + 2 * gT
  let incjC : ℤ := b.n0 + 2 * gC
  let inckT : ℤ := incjT * (b.n1 + 2 * gT)
  let inckC : ℤ := incjC * (b.n1 + 2 * gC)
  let d (g : ℕ) : ℤ := (g : ℤ) - gM
  let te := d gT + d gT * incjT + d gT * inckT
  let ci := d gC + d gC * incjC + d gC * inckC
  walkAll (2 * d gT) (2 * d gC) (2 * incjT * d gT) (2 * incjC * d gC) nx ny (b.lo0 - gM) (b.lo1 - gM) (b.lo2 - gM)
    te ci 0 nz

end AMPE.Alloy
