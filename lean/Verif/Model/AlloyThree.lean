import Verif.Model.Alloy
import Verif.Model.PhaseRHS

/-!
# Alloys with three phases and several order parameters

The fractions with which the phase concentrations are computed and the driving forces, for `n + 1` order parameters:
`0..nA-1` are phase A, `nA..n-1` phase B and the last one is the liquid.  Molar free energies and the solver of the
phase concentrations come from the external library Thermo4PFM and are parameters.
-/

namespace AMPE.AlloyThree

open AMPE.PhaseRHS AMPE.Alloy

/-- Fractions `hphi[0..2]` (liquid, A, B) handed to `computePhaseConcentrations`,
source/EquilibriumPhaseConcentrationsBinaryMultiOrderThreePhases.cc:125-145 and
source/QuadraticEquilibriumThreePhasesTernaryStrategyMultiOrder.cc:147-160. -/
noncomputable def shares (n nA : ℕ) (phi : Fin (n + 1) → ℝ) : Fin 3 → ℝ :=
  let h0 := phi (Fin.last n) * phi (Fin.last n)
  let h1 := ∑ k : Fin n, if k.val < nA then phi k.castSucc * phi k.castSucc else 0
  let h2 := ∑ k : Fin n, if k.val < nA then 0 else phi k.castSucc * phi k.castSucc
  let inv := 1 / (h0 + h1 + h2)
  ![h0 * inv, h1 * inv, h2 * inv]

/-- What `CALPHADFreeEnergyStrategyMultiOrder::addDrivingForceOnPatch` adds to the right-hand side of order parameter
`p`, source/CALPHADFreeEnergyStrategyMultiOrder.cc:179-245: the chemical potential is that of the liquid
(`computeMuL`, source/CALPHADFreeEnergyStrategyBinary.cc:688-700).  `f` are the stored phase energies, `c` the phase
concentrations, in the order liquid, A, B. -/
noncomputable def driveCalphad (n nA : ℕ) (withB : Bool) (vmL : ℝ) (dfL : ℝ → ℝ) (f c : Fin 3 → ℝ)
    (phi : Fin (n + 1) → ℝ) (p : Fin (n + 1)) : ℝ :=
  let mu := dfL (c 0) * invVm vmL
  ternaryDriving n nA (f 0 - mu * c 0) (f 1 - mu * c 1) (if withB then f 2 - mu * c 2 else 0) phi p

/-- What `QuadraticFreeEnergyStrategyMultiOrderTernaryThreePhase::addDrivingForceOnPatch` adds,
source/QuadraticFreeEnergyStrategyMultiOrderTernaryThreePhase.cc:445-513 with `computeMuL/A/B` (521-556): every phase uses
its own chemical potential and its own molar volume. -/
noncomputable def driveQuadratic (n nA : ℕ) (vm : Fin 3 → ℝ) (df : Fin 3 → (Fin 2 → ℝ) → Fin 2 → ℝ) (f : Fin 3 → ℝ)
    (c : Fin 3 → Fin 2 → ℝ) (phi : Fin (n + 1) → ℝ) (p : Fin (n + 1)) : ℝ :=
  let mu (j : Fin 3) (i : Fin 2) := df j (c j) i * invVm (vm j)
  let d (j : Fin 3) := f j - mu j 0 * c j 0 - mu j 1 * c j 1
  ternaryDriving n nA (d 0) (d 1) (d 2) phi p

end AMPE.AlloyThree
