import Verif.Model.Flux
import Mathlib.Analysis.SpecialFunctions.Exp
import Mathlib.Data.Finset.Sort

/-!
# Temperature fields and heat equation

source/fortran/{2d,3d}/temperature.m4, laplacian.m4, quatrhs.m4 (`computerhstemp`); source/SimpleTemperatureRHSStrategy.cc,
source/NKRHeatCapacityStrategy.cc, source/ConstantHeatCapacityStrategy.cc, source/GaussianTemperatureStrategy.cc, GradientTemperatureStrategy.{h,cc},
source/SteadyStateTemperatureGaussianSource.cc, source/SteadyStateTemperatureCompositionSource.cc, source/QuatModel.cc (`computeThermalEnergy`),
source/QuatModelParameters.cc (heat capacity input).  `double` is ℝ.
-/

namespace AMPE.Thermal

open AMPE.Flux

/-! ## Heat equation -/

/-- `laplacian`, source/fortran/2d/laplacian.m4:38-56. -/
noncomputable def laplacian2 (dx dy coeff : ℝ) (u : Field2) (i j : ℤ) : ℝ :=
  let dxinv2 := 1 / (dx * dx)
  let dyinv2 := 1 / (dy * dy)
  let tx := u (i - 1) j - 2 * u i j + u (i + 1) j
  let ty := u i (j - 1) - 2 * u i j + u i (j + 1)
  coeff * (tx * dxinv2 + ty * dyinv2)

/-- `laplacian`, source/fortran/3d/laplacian.m4:40-63. -/
noncomputable def laplacian3 (dx dy dz coeff : ℝ) (u : Field3) (i j k : ℤ) : ℝ :=
  let dxinv2 := 1 / (dx * dx)
  let dyinv2 := 1 / (dy * dy)
  let dzinv2 := 1 / (dz * dz)
  let tx := u (i - 1) j k - 2 * u i j k + u (i + 1) j k
  let ty := u i (j - 1) k - 2 * u i j k + u i (j + 1) k
  let tz := u i j (k - 1) - 2 * u i j k + u i j (k + 1)
  coeff * (tx * dxinv2 + ty * dyinv2 + tz * dzinv2)

/-- `computerhstemp`, source/fortran/2d/quatrhs.m4:749-806, called by source/SimpleTemperatureRHSStrategy.cc:85-94. -/
noncomputable def rhsTemp2 (dx dy diff L : ℝ) (withPhase : Bool) (T cp phiRhs : Field2) (i j : ℤ) : ℝ :=
  let rhs := laplacian2 dx dy diff T i j
  if withPhase then
    let gamma := L / cp i j
    rhs + gamma * phiRhs i j
  else rhs

/-- `computerhstemp`, source/fortran/3d/quatrhs.m4:887-943. -/
noncomputable def rhsTemp3 (dx dy dz diff L : ℝ) (withPhase : Bool) (T cp phiRhs : Field3) (i j k : ℤ) : ℝ :=
  let rhs := laplacian3 dx dy dz diff T i j k
  if withPhase then
    let gamma := L / cp i j k
    rhs + gamma * phiRhs i j k
  else rhs

/-- `QuatModel::computeThermalEnergy`, source/QuatModel.cc:5373-5396; `cellops.integral` of SAMRAI is the sum over the cells of
value times weight. -/
noncomputable def thermalEnergy {ι : Type} (L : ℝ) (withPhase : Bool) (cells : List ι) (w cp T phi : ι → ℝ) : ℝ :=
  let lenergy := if withPhase then (cells.map fun c => phi c * w c).sum * (-1 * L) else 0
  let cenergy := (cells.map fun c => cp c * T c * w c).sum
  lenergy + cenergy

/-! ## Heat capacity -/

/-- `std::map<short,double>` as the list of its entries (distinct keys). -/
abbrev CpMap := List (ℤ × ℝ)

/-- The set `powers` of all powers, in increasing order: source/NKRHeatCapacityStrategy.cc:31-49. -/
def powerList (cps : List CpMap) : List ℤ := ((cps.flatMap fun m => m.map Prod.fst).toFinset).sort (· ≤ ·)

/-- `cp_coeffs[isp*npowers+ip]`: zero, then assigned in the loop over the map, source/NKRHeatCapacityStrategy.cc:54-76. -/
def packOne (m : CpMap) (p : ℤ) : ℝ := m.foldl (fun acc kv => if p = kv.1 then kv.2 else acc) 0

/-- The array `cp_coeffs`. -/
def packCoeffs (cps : List CpMap) : List ℝ := cps.flatMap fun m => (powerList cps).map (packOne m)

/-- The inner loops over the powers, source/fortran/2d/temperature.m4:135-138, 143-146 (`off` is `(m-1)*npow`).  Reading outside the array
is `none`. -/
noncomputable def cpVal (coeffs : List ℝ) (powers : List ℤ) (te : ℝ) (off : ℕ) : Option ℝ :=
  (List.range powers.length).foldlM (fun acc p => do
    let a ← coeffs[off + p]?
    let e ← powers[p]?
    pure (acc + a * te ^ e)) 0

/-- `heat_capacity_nkr` in one cell, source/fortran/2d/temperature.m4:124-148 (3d: 137-164); `conc` are the `nc` compositions. -/
noncomputable def heatCapacityNkr (coeffs : List ℝ) (powers : List ℤ) (te : ℝ) (conc : List ℝ) : Option ℝ := do
  let npow := powers.length
  let s ← conc.zipIdx.foldlM (fun (s : ℝ × ℝ) cm => do
    let v ← cpVal coeffs powers te (cm.2 * npow)
    pure (s.1 - cm.1, s.2 + v * cm.1)) ((1 : ℝ), (0 : ℝ))
  let v ← cpVal coeffs powers te (conc.length * npow)
  pure (s.2 + v * s.1)

/-- `NKRHeatCapacityStrategy::setCurrentValue` in one cell. -/
noncomputable def nkr (cps : List CpMap) (te : ℝ) (conc : List ℝ) : Option ℝ :=
  heatCapacityNkr (packCoeffs cps) (powerList cps) te conc

/-- Coefficients after the rescaling of the temperature unit by `f`, source/QuatModelParameters.cc:562-571. -/
def rescaleCp (f : ℝ) (m : CpMap) : CpMap := m.map fun kv => (kv.1, kv.2 * f)

/-- The constant heat capacity taken without composition: the coefficient of power 0 (always there, `readSpeciesCP`),
source/QuatModel.cc:216-219, source/QuatModelParameters.cc:18-31. -/
def constantCp (m : CpMap) : Option ℝ := (m.find? fun kv => kv.1 = 0).map Prod.snd

/-- The static flag `first_time` and the `cp` data of the levels. -/
structure CpState where
  firstTime : Bool
  levels : List ℝ

/-- What can happen to the data: the strategy is asked to set it, or the mesh is adapted and the levels above `keep` are
replaced by `fresh` new ones. -/
inductive CpEvent where
  | setCurrentValue
  | regrid (keep fresh : ℕ)

/-- source/ConstantHeatCapacityStrategy.cc:23-36; source/QuatModel.cc:2877-3012 and 3121-3128: new levels are allocated and zeroed and `cp`
is not among the data transferred (source/QuatModel.cc:2733-2855). -/
def cpStep (cp : ℝ) (s : CpState) : CpEvent → CpState
  | .setCurrentValue => ⟨false, if s.firstTime then s.levels.map fun _ => cp else s.levels⟩
  | .regrid keep fresh => ⟨s.firstTime, s.levels.take keep ++ List.replicate fresh 0⟩

/-- A run. -/
def cpRun (cp : ℝ) (s : CpState) (es : List CpEvent) : CpState := es.foldl (cpStep cp) s

/-! ## Gaussian temperature -/

/-- Distance along one axis, source/fortran/2d/temperature.m4:79-83 (same in 3d and in `initgaussiansource`). -/
noncomputable def axisDist (ll x c : ℝ) : ℝ :=
  let x1 := |x - c|
  if 0 < ll then
    let x1 := min x1 |x - c + ll|
    min x1 |x - c - ll|
  else x1

/-- Centre of cell `i` along one axis, source/fortran/2d/temperature.m4:78. -/
noncomputable def cellCenter (xlo dx : ℝ) (ifirst i : ℤ) : ℝ := xlo + dx * (((i - ifirst : ℤ) : ℝ) + 0.5)

/-- `initgaussian` at a point, source/fortran/2d/temperature.m4:74-94. -/
noncomputable def gauss2 (base peak sd l0 l1 c0 c1 x y : ℝ) : ℝ :=
  let deltaT := peak - base
  let factor := 1 / (2 * sd * sd)
  let radius2 := axisDist l0 x c0 ^ 2 + axisDist l1 y c1 ^ 2
  base + deltaT * Real.exp (-radius2 * factor)

/-- source/fortran/3d/temperature.m4:75-103. -/
noncomputable def gauss3 (base peak sd l0 l1 l2 c0 c1 c2 x y z : ℝ) : ℝ :=
  let deltaT := peak - base
  let factor := 1 / (2 * sd * sd)
  let radius2 := axisDist l0 x c0 ^ 2 + axisDist l1 y c1 ^ 2 + axisDist l2 z c2 ^ 2
  base + deltaT * Real.exp (-radius2 * factor)

/-- `while (c < low) c += ll;`, source/GaussianTemperatureStrategy.cc:123-124, as a big-step relation. -/
inductive LoopUp (low ll : ℝ) : ℝ → ℝ → Prop
  | done {c : ℝ} : ¬ c < low → LoopUp low ll c c
  | step {c d : ℝ} : c < low → LoopUp low ll (c + ll) d → LoopUp low ll c d

/-- `while (c > up) c -= ll;`, lines 125-126. -/
inductive LoopDown (up ll : ℝ) : ℝ → ℝ → Prop
  | done {c : ℝ} : ¬ up < c → LoopDown up ll c c
  | step {c d : ℝ} : up < c → LoopDown up ll (c - ll) d → LoopDown up ll c d

/-- The centre along a periodic axis: both loops. -/
def CenterWrap (low up c d : ℝ) : Prop := ∃ e, LoopUp low (up - low) c e ∧ LoopDown up (up - low) e d

/-- `getCurrentTemperature`, source/GaussianTemperatureStrategy.cc:94-110. -/
noncomputable def peakAt (initial rate target time : ℝ) : ℝ :=
  let p := initial + rate * time
  if rate < 0 ∧ p < target then target else if 0 < rate ∧ target < p then target else p

/-- `setCurrentTemperature`, source/GaussianTemperatureStrategy.cc:112-159: what happens to the temperature in memory; `field time` is the Gaussian profile with the centre
and peak of that time. -/
noncomputable def setGauss {α : Type} (rate : ℝ) (field : ℝ → α) (mem : α) (time : ℝ) : α :=
  if rate ≠ 0 ∨ time = 0 then field time else mem

/-- Calls at successive times. -/
noncomputable def runGauss {α : Type} (rate : ℝ) (field : ℝ → α) (mem : α) (times : List ℝ) : α :=
  times.foldl (setGauss rate field) mem

/-! ## Frozen gradient -/

/-- The members `d_ref_center[0]`, `d_ref_time`, `d_velocity_x` of GradientTemperatureStrategy. -/
structure Frame where
  center : ℝ
  time : ℝ
  vel : ℝ

/-- `resetVelocity` without temperature history, source/GradientTemperatureStrategy.h:36-48. -/
def resetVelocity (f : Frame) (time vel : ℝ) : Frame := ⟨f.center - (time - f.time) * f.vel, time, vel⟩

/-- `d_center[0]` at a time, source/GradientTemperatureStrategy.cc:123-129 (no history). -/
def centerAt (f : Frame) (time : ℝ) : ℝ := f.center - (time - f.time) * f.vel

/-- `initgradient` at a point, source/fortran/2d/temperature.m4:274-284. -/
def gradT2 (Tref c0 c1 g0 g1 x y : ℝ) : ℝ := Tref + (x - c0) * g0 + (y - c1) * g1

/-- source/fortran/3d/temperature.m4:303-316. -/
def gradT3 (Tref c0 c1 c2 g0 g1 g2 x y z : ℝ) : ℝ := Tref + (x - c0) * g0 + (y - c1) * g1 + (z - c2) * g2

/-- The temperature set at a point of the frame at a time (2D): `temperature0 = d_temperature0 + d_dtemperaturedt*time`. -/
def frozen2 (T0 rate c1 g0 g1 : ℝ) (f : Frame) (time x y : ℝ) : ℝ :=
  gradT2 (T0 + rate * time) (centerAt f time) c1 g0 g1 x y

/-- Velocity changes at given times, as made by `QuatIntegrator::Advance` (source/QuatIntegrator.cc:2199-2212). -/
def frameAfter (f : Frame) (rs : List (ℝ × ℝ)) : Frame := rs.foldl (fun f r => resetVelocity f r.1 r.2) f

/-! ## Heat sources of the steady temperature equation -/

/-- `source_temperature`, source/fortran/2d/temperature.m4:34-37 (3d: 36-40). -/
noncomputable def sourceTemp (s1 s2 c cp : ℝ) : ℝ := (s1 * c + s2 * (1 - c)) / cp

/-- `initgaussiansource` at a point (2D), source/fortran/2d/temperature.m4:186-204. -/
noncomputable def gaussSource2 (sd peak l0 l1 c0 c1 x y cp : ℝ) : ℝ :=
  let factor := 1 / (2 * sd * sd)
  let radius2 := axisDist l0 x c0 ^ 2 + axisDist l1 y c1 ^ 2
  peak * Real.exp (-radius2 * factor) / cp

/-- The peak at a time, source/SteadyStateTemperatureGaussianSource.cc:84-86. -/
noncomputable def pulsePeak (peak tPulse width time : ℝ) : ℝ :=
  Real.exp (-(time - tPulse) * (time - tPulse) / (2 * width * width)) * peak

/-- Residual of the system solved: operator `d ΔT` with `d = -1 * (1e-6 * D)`, right-hand side the source with the scaled peak,
source/SteadyStateTemperatureGaussianSource.cc:109-114, 144-151; `lap` is the Laplacian of the solution in the cell. -/
noncomputable def steadyResidual (D sd peak l0 l1 c0 c1 x y cp lap : ℝ) : ℝ :=
  let scaledD := 1e-6 * D
  let scaledPeak := 1e-6 * peak
  (-1 * scaledD) * lap - gaussSource2 sd scaledPeak l0 l1 c0 c1 x y cp

end AMPE.Thermal
