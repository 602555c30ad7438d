import Mathlib.Analysis.SpecialFunctions.Trigonometric.Inverse

/-! # Model of `computeWeights3Pairs` (source/computeWeights3Pairs.cc:17-90) -/

namespace AMPE.PairWeights

/-- `maxp`, line 23. -/
noncomputable def maxp : ℝ := 0.99

/-- Body of the `if` in lines 25-31: cut component `i` to `maxp` and give half of the missing sum to
each of the other two components. -/
noncomputable def redistribute (pp : Fin 3 → ℝ) (i : Fin 3) : Fin 3 → ℝ :=
  let pp := Function.update pp i maxp
  let delta := 1 - pp 0 - pp 1 - pp 2
  let pp := Function.update pp (i + 1) (pp (i + 1) + 0.5 * delta)
  Function.update pp (i + 2) (pp (i + 2) + 0.5 * delta)

/-- Lines 24-32: the loop stops (`break`) at the first component above `maxp`. -/
noncomputable def limitFractions (pp : Fin 3 → ℝ) : Fin 3 → ℝ :=
  if pp 0 > maxp then redistribute pp 0
  else if pp 1 > maxp then redistribute pp 1
  else if pp 2 > maxp then redistribute pp 2
  else pp

/-- Norm of the difference of two coordinate triples, lines 42-55. -/
noncomputable def dist3 (v w : Fin 3 → ℝ) : ℝ :=
  Real.sqrt ((v 0 - w 0) * (v 0 - w 0) + (v 1 - w 1) * (v 1 - w 1) + (v 2 - w 2) * (v 2 - w 2))

/-- Lines 62-66 (and 68-71, 73-76): `acos` of the clipped cosine, divided by pi. -/
noncomputable def angleWeight (da db dopp : ℝ) : ℝ :=
  let a := (da * da + db * db - dopp * dopp) / (2 * da * db)
  let a := if a < -1 then -1 else a
  let a := if a > 1 then 1 else a
  1 / Real.pi * Real.arccos a

/-- `computeWeights3Pairs`: `(w01, w02, w12)`; `none` when one of the assertions of lines 33-35 and
57-59 fails (division by zero or degenerate triangle). -/
noncomputable def computeWeights3Pairs (p : Fin 3 → ℝ) : Option (ℝ × ℝ × ℝ) :=
  let pp := limitFractions p
  if 0 < pp 0 + pp 1 ∧ 0 < pp 0 + pp 2 ∧ 0 < pp 1 + pp 2 then
    let v01 : Fin 3 → ℝ := ![pp 0 / (pp 0 + pp 1), pp 1 / (pp 0 + pp 1), 0]
    let v02 : Fin 3 → ℝ := ![pp 0 / (pp 0 + pp 2), 0, pp 2 / (pp 0 + pp 2)]
    let v12 : Fin 3 → ℝ := ![0, pp 1 / (pp 1 + pp 2), pp 2 / (pp 1 + pp 2)]
    let d0 := dist3 v02 v01
    let d1 := dist3 v12 v01
    let d2 := dist3 v12 v02
    if 1 / 10 ^ 32 < d0 ∧ 1 / 10 ^ 32 < d1 ∧ 1 / 10 ^ 32 < d2 then
      some (angleWeight d0 d1 d2, angleWeight d0 d2 d1, angleWeight d2 d1 d0)
    else none
  else none

end AMPE.PairWeights
