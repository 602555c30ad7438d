import Mathlib.Analysis.SpecialFunctions.Log.Basic

/-!
# Model of scalar coefficient strategies

Chemical mobilities, partition coefficients, uniform temperature, moving frame and stiffness index maps.
`double` is `ℝ`.  The gas constant is a parameter `R` (it comes from an external header).  `assert`s are
not modelled (they are compiled out of release builds).
-/

namespace AMPE.Coefficients

/-! ## source/CALPHADMobility.{h,cc} -/

/-- Parameters of one species in one phase.  `q`, `qExtra`, `qq0` ... hold (a0, a1) for
`a0 + R*T*ln(a1)`; `hasExtra` is `!d_q_extra.empty()`. source/CALPHADMobility.h:36-44. -/
structure MobParams where
  q : ℕ → ℝ × ℝ
  hasExtra : Bool
  qExtra : ℕ → ℝ × ℝ
  qq0 : ℕ → ℕ → ℝ × ℝ
  qq1 : ℕ → ℕ → ℝ × ℝ
  qq2 : ℕ → ℕ → ℝ × ℝ
  qq3 : ℕ → ℕ → ℝ × ℝ

/-- `getQ`, source/CALPHADMobility.h:46-59. -/
noncomputable def getQ (R : ℝ) (p : MobParams) (i : ℕ) (T : ℝ) : ℝ :=
  (p.q i).1 + R * T * Real.log (p.q i).2 +
    if p.hasExtra then (p.qExtra i).1 * T * Real.log T + (p.qExtra i).2 / T else 0

/-- `getQQ0` .. `getQQ3`, source/CALPHADMobility.h:61-96. -/
noncomputable def getQQ (R : ℝ) (qq : ℕ → ℕ → ℝ × ℝ) (i j : ℕ) (T : ℝ) : ℝ :=
  (qq i j).1 + R * T * Real.log (qq i j).2

/-- `getDeltaG` (binary), source/CALPHADMobility.cc:158-168. -/
noncomputable def deltaG2 (R : ℝ) (p : MobParams) (c0 c1 T : ℝ) : ℝ :=
  let dc := c0 - c1
  c0 * getQ R p 0 T + c1 * getQ R p 1 T +
    c0 * c1 * (getQQ R p.qq0 0 1 T +
      dc * (getQQ R p.qq1 0 1 T + dc * (getQQ R p.qq2 0 1 T + dc * getQQ R p.qq3 0 1 T)))

/-- `getDeltaG` (ternary), source/CALPHADMobility.cc:170-177. -/
noncomputable def deltaG3 (R : ℝ) (p : MobParams) (c0 c1 c2 T : ℝ) : ℝ :=
  c0 * getQ R p 0 T + c1 * getQ R p 1 T + c2 * getQ R p 2 T +
    c0 * c1 * (getQQ R p.qq0 0 1 T + (c0 - c1) * getQQ R p.qq1 0 1 T) +
    c0 * c2 * (getQQ R p.qq0 0 2 T + (c0 - c2) * getQQ R p.qq1 0 2 T) +
    c1 * c2 * (getQQ R p.qq0 1 2 T + (c1 - c2) * getQQ R p.qq1 1 2 T)

/-- `getAtomicMobility`, source/CALPHADMobility.h:108-131. -/
noncomputable def atomicMobility (R dG T : ℝ) : ℝ := Real.exp (dG * (1 / (R * T))) * (1 / (R * T))

/-- `m2toum2`, source/CALPHADMobility.cc:18. -/
noncomputable def m2toum2 : ℝ := 1e12

/-- `computeDiffusionMobilityBinaryPhase`, source/CALPHADMobility.cc:200-219. -/
noncomputable def mobilityBinary (R : ℝ) (p0 p1 : MobParams) (c0 T : ℝ) : ℝ :=
  let c1 := 1 - c0
  let m0 := atomicMobility R (deltaG2 R p0 c0 c1 T) T
  let m1 := atomicMobility R (deltaG2 R p1 c0 c1 T) T
  let mm := c0 * m1 + c1 * m0
  c0 * c1 * mm * m2toum2

/-- `computeDiffusionMobilityTernaryPhase`, source/CALPHADMobility.cc:221-244: the four entries of `mobility`. -/
noncomputable def mobilityTernary (R : ℝ) (p0 p1 p2 : MobParams) (c0 c1 T : ℝ) : ℝ × ℝ × ℝ × ℝ :=
  let c2 := 1 - c0 - c1
  let m0 := atomicMobility R (deltaG3 R p0 c0 c1 c2 T) T
  let m1 := atomicMobility R (deltaG3 R p1 c0 c1 c2 T) T
  let m2 := atomicMobility R (deltaG3 R p2 c0 c1 c2 T) T
  let off := c0 * c1 * (-(1 - c0) * m0 - (1 - c1) * m1 + c2 * m2) * m2toum2
  (c0 * ((1 - c0) * (1 - c0) * m0 + c0 * c1 * m1 + c0 * c2 * m2) * m2toum2, off, off,
    c1 * (c0 * c1 * m0 + (1 - c1) * (1 - c1) * m1 + c1 * c2 * m2) * m2toum2)

/-- Index of a species letter in `index_map`, source/CALPHADMobility.cc:22-25: `operator[]` gives 0 for a letter
that was not inserted. -/
def speciesIndex (ch : Char) : ℕ := if ch = 'A' then 0 else if ch = 'B' then 1 else if ch = 'C' then 2 else 0

/-- First-order terms read by `initialize`, source/CALPHADMobility.cc:27-64: `keys ch` holds the two
coefficients if the key `q<ch>` exists.  `none`: a write outside `d_q`. -/
def initQ (keys : Char → Option (ℝ × ℝ)) : Option (List (ℝ × ℝ)) :=
  let smq := ['A', 'B', 'C', 'D']
  let n := (smq.filter fun ch => (keys ch).isSome).length
  smq.foldl (fun (q : Option (List (ℝ × ℝ))) ch =>
    match q, keys ch with
    | some q, some v => if speciesIndex ch < q.length then some (q.set (speciesIndex ch) v) else none
    | q, _ => q) (some (List.replicate n (0, 0)))

/-! ## source/AzizPartitionCoefficientStrategy.cc -/

/-- `evaluate` for one cell, source/AzizPartitionCoefficientStrategy.cc:136-145; `vd` as given to the
constructor (`d_inv_vd = 1/vd`). -/
noncomputable def azizCoefficient (vd ke velocity : ℝ) : ℝ :=
  let vel := |velocity|
  let scaledv := vel * (1 / vd)
  if ke < 1 then (ke + scaledv) / (1 + scaledv) else (1 + scaledv) / (1 / ke + scaledv)

/-- `computeKeq`, source/AzizPartitionCoefficientStrategy.cc:151-166: the configured value if positive, else the
ratio of the computed equilibrium compositions (`none` if the solver failed: -1). -/
noncomputable def computeKeq (keq : ℝ) (ceq : Option (ℝ × ℝ)) : ℝ :=
  if keq > 0 then keq else match ceq with
    | some (cl, ca) => ca / cl
    | none => -1

/-! ## source/PartitionPhaseConcentrationsStrategy.cc -/

/-- One cell and species, source/PartitionPhaseConcentrationsStrategy.cc:135-138: (c_l, c_a); `none` for a
division by zero. -/
noncomputable def partitionPhases (k hphi c : ℝ) : Option (ℝ × ℝ) :=
  if 1 - hphi + k * hphi = 0 then none
  else some (c * (1 / (1 - hphi + k * hphi)), k * c * (1 / (1 - hphi + k * hphi)))

/-! ## source/ScalarTemperatureStrategy.cc -/

/-- Configuration read by the constructor, source/ScalarTemperatureStrategy.cc:21-27. -/
structure ScalarTemp where
  t0 : ℝ
  rate : ℝ
  target : ℝ

/-- `getCurrentTemperature`, source/ScalarTemperatureStrategy.cc:57-74. -/
noncomputable def ScalarTemp.current (s : ScalarTemp) (time : ℝ) : ℝ :=
  let t := s.t0 + s.rate * time
  if s.rate < 0 ∧ t < s.target then s.target
  else if s.target > 0 ∧ s.rate > 0 ∧ t > s.target then s.target
  else t

/-- `setCurrentTemperature`, source/ScalarTemperatureStrategy.cc:76-90: new field value from the old one. -/
noncomputable def ScalarTemp.set (s : ScalarTemp) (field time : ℝ) : ℝ :=
  if s.rate ≠ 0 ∨ time = 0 then s.current time else field

/-! ## source/AdaptMovingFrame.cc -/

/-- Members and the function-static flag, source/AdaptMovingFrame.cc:15-27, 38, 60-64. -/
structure Frame where
  maxAccel : ℝ
  lx : ℝ
  volInv : ℝ
  first : Bool
  prevTime : ℝ
  prevFs : ℝ

/-- Constructor (`lx`, `vol` from the domain; uninitialised members are arbitrary). -/
noncomputable def Frame.init (frameVelocity lx vol t fs : ℝ) : Frame :=
  { maxAccel := |frameVelocity|, lx := lx, volInv := 1 / vol, first := true, prevTime := t, prevFs := fs }

/-- `adaptVelocity`, source/AdaptMovingFrame.cc:29-67: new velocity and state; `none` if the time did not change
(division by zero: the result is not finite). -/
noncomputable def Frame.adapt (f : Frame) (time solidVolume velocity : ℝ) : Option (ℝ × Frame) :=
  let fs := solidVolume * f.volInv
  let next : Frame := { f with first := false, prevTime := time, prevFs := fs }
  if f.first then some (velocity + 0, next)
  else if time - f.prevTime = 0 then none
  else
    let dfsk := fs - f.prevFs
    let dtinv := 1 / (time - f.prevTime)
    let deltavk := f.lx * dfsk * dtinv
    let acceleration := if |deltavk| > f.maxAccel then deltavk * (f.maxAccel / |deltavk|) else deltavk
    some (velocity + acceleration, next)

/-! ## source/fortran/functions.f, stiffness index maps -/

/-- `single_index_stiffness2d`, source/fortran/functions.f:407-421. -/
def singleIndex2d (i j : ℤ) : ℤ := if i = j then i else 3

/-- `single_index_stiffness3d`, source/fortran/functions.f:428-442. -/
def singleIndex3d (i j : ℤ) : ℤ := if i = j then i else -i - j + 9

/-- `storage_index_stiffness2d`, source/fortran/functions.f:449-470. -/
def storageIndex2d (i j : ℤ) : ℤ :=
  let ii := if i ≥ j then j else i
  let jj := if i ≥ j then i else j
  let n := 4 - ii
  7 - (n * (n + 1)).tdiv 2 + (jj - ii)

/-- `storage_index_stiffness3d`, source/fortran/functions.f:477-498. -/
def storageIndex3d (i j : ℤ) : ℤ :=
  let ii := if i ≥ j then j else i
  let jj := if i ≥ j then i else j
  let n := 7 - ii
  22 - (n * (n + 1)).tdiv 2 + (jj - ii)

end AMPE.Coefficients
