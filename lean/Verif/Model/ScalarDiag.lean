import Verif.Model.Weights

/-!
# Model of the printed scalar diagnostics

`QuatModel::printScalarDiagnostics` (source/QuatModel.cc:2552-2677): volume fractions, integral and maximum of the
composition, relative density.  The energies printed there are in `Model/EnergyReport.lean`, the temperatures in
`Model/TempField.lean`, the integration weights in `Model/Weights.lean`.

A field of depth `n` on a hierarchy is a function of component, level and cell.  SAMRAI is trusted for: `integral` is
the sum of value times weight over all patches of all levels, `L1Norm` the sum of absolute value times weight,
`sumControlVolumes` the sum of the weights, `copyDepth` a copy (out of range: undefined behaviour, `none`).
-/

namespace AMPE.ScalarDiag

open AMPE.Weights

/-- The order-parameter counts of the input, source/QuatModelParameters.cc:812-827.  `nA` is the optional entry
`norderp_A`; `d_norderp_B` is left as it was (`oldB`, the member is not initialised) if `norderp_A <= 0`. -/
structure Counts where
  threePhases : Bool
  norderp : ℤ
  norderpA : ℤ
  norderpB : ℤ

def readCounts (threePhases : Bool) (norderp nA : Option ℤ) (oldB : ℤ) : Counts :=
  let n := norderp.getD 1
  let a := nA.getD (if n = 1 then 1 else n - 1)
  ⟨threePhases, n, a, if 0 < a then (if n - a - 1 < 0 then 0 else n - a - 1) else oldB⟩

/-- `norderp()`, source/QuatModelParameters.h:82: the depth of the phase field. -/
def Counts.depth (c : Counts) : ℤ := if c.threePhases then 3 else c.norderp

/-- A component of the phase field. -/
abbrev Comp (D : ℕ) := Level D → Cell D → ℝ

/-- `copyDepthCellData` of component `k` of a field of depth `n`, source/toolsSAMRAI.cc:49-72. -/
def component {D : ℕ} (n : ℤ) (phi : ℤ → Comp D) (k : ℤ) : Option (Comp D) :=
  if 0 ≤ k ∧ k < n then some (phi k) else none

/-- Volume of the domain, source/QuatModel.cc:2601-2605. -/
noncomputable def volume {D : ℕ} (low up : Fin D → ℝ) : ℝ := ∏ d, (up d - low d)

/-- `evaluateVolumeSolid`, source/QuatModel.cc:5171-5180. -/
noncomputable def volumeSolid {D : ℕ} (dx0 : Fin D → ℝ) (phi : Comp D) (levels : List (Level D)) : ℝ :=
  integral dx0 (fun l c => |phi l c|) levels

/-- `evaluatePhaseFraction`, source/QuatModel.cc:5156-5168. -/
noncomputable def phaseVolume {D : ℕ} (dx0 : Fin D → ℝ) (n : ℤ) (phi : ℤ → Comp D) (levels : List (Level D)) (k : ℤ) :
    Option ℝ :=
  (component n phi k).map fun f => integral dx0 f levels

/-- The volume fractions printed, in order, source/QuatModel.cc:2607-2628. -/
noncomputable def fractions {D : ℕ} (dx0 low up : Fin D → ℝ) (c : Counts) (phi : ℤ → Comp D)
    (levels : List (Level D)) : Option (List ℝ) :=
  if c.threePhases then
    (List.range 3).mapM fun i : ℕ => (phaseVolume dx0 3 phi levels (i : ℤ)).map fun v => v / volume low up
  else if 1 < c.depth then
    (List.range c.depth.toNat).mapM fun i : ℕ =>
      (phaseVolume dx0 c.depth phi levels (i : ℤ)).map fun v => v / volume low up
  else some [volumeSolid dx0 (phi 0) levels / volume low up]

/-- Whether "Cex (HBSM)" is printed, source/QuatModel.cc:2657. -/
def printsCex (c : Counts) : Prop := c.depth < 1

/-- Integral of a component with the diagnostics weights (not cleared under finer levels, see `totalDiag`). -/
noncomputable def diagIntegral {D : ℕ} (dx0 low dlow dup : Fin D → ℝ) (f : Comp D) (levels : List (Level D)) : ℝ :=
  (levels.map fun l => levelSum l fun _ c => diagWeight dx0 low dlow dup l c * f l c).sum

/-- `depth_void`, source/QuatModel.cc:2713-2714. -/
def Counts.depthVoid (c : Counts) : ℤ := c.norderpA + c.norderpB

/-- `computeDensityDiagnostics`, source/QuatModel.cc:2706-2729; the assertion `volume > 0` is `none`. -/
noncomputable def density {D : ℕ} (dx0 low dlow dup : Fin D → ℝ) (c : Counts) (phi : ℤ → Comp D)
    (levels : List (Level D)) : Option ℝ :=
  (component c.depth phi c.depthVoid).bind fun f =>
    if 0 < totalDiag dx0 low dlow dup levels then
      some (1 - diagIntegral dx0 low dlow dup f levels / totalDiag dx0 low dlow dup levels)
    else none

end AMPE.ScalarDiag
