import Verif.Model.Flux
import Mathlib.Analysis.SpecialFunctions.Trigonometric.Arctan

/-!
# Phase-field rates and the energies they should descend

Arrays are total functions of integer cell indices, as in `Verif.Model.Flux`.  Loops that visit each cell
once are written as the function of the cell.  The Fortran `stop` of an unknown function kind is `none`.
-/

namespace AMPE.PhaseRHS

open AMPE.Functions AMPE.Flux

/-! ## Fluxes -/

/-- `gradient_flux`, source/fortran/2d/quatrhs.m4:12-52, x faces. -/
noncomputable def gradFluxX (eps h : ℝ) (u : Field2) : Field2 := fun i j =>
  (u i j - u (i - 1) j) * (eps * eps / h)

/-- `gradient_flux`, y faces. -/
noncomputable def gradFluxY (eps h : ℝ) (u : Field2) : Field2 := fun i j =>
  (u i j - u i (j - 1)) * (eps * eps / h)

/-- `compute_flux_isotropic`, source/fortran/2d/quatrhs.m4:106-150, x faces. -/
noncomputable def isoFluxX (eps h : ℝ) (u : Field2) : Field2 := fun i j =>
  ((1 / 12) * (eps * eps) / h) * ((u i (j - 1) - u (i - 1) (j - 1)) + (u i j - u (i - 1) j) * 10
    + (u i (j + 1) - u (i - 1) (j + 1)))

/-- `compute_flux_isotropic`, y faces. -/
noncomputable def isoFluxY (eps h : ℝ) (u : Field2) : Field2 := fun i j =>
  ((1 / 12) * (eps * eps) / h) * ((u (i - 1) j - u (i - 1) (j - 1)) + (u i j - u i (j - 1)) * 10
    + (u (i + 1) j - u (i + 1) (j - 1)))

/-- `gradient_flux`, source/fortran/3d/quatrhs.m4:12-64. -/
noncomputable def gradFlux3X (eps h : ℝ) (u : Field3) : Field3 := fun i j k =>
  (u i j k - u (i - 1) j k) * (eps * eps / h)

/-- Direction 1. -/
noncomputable def gradFlux3Y (eps h : ℝ) (u : Field3) : Field3 := fun i j k =>
  (u i j k - u i (j - 1) k) * (eps * eps / h)

/-- Direction 2. -/
noncomputable def gradFlux3Z (eps h : ℝ) (u : Field3) : Field3 := fun i j k =>
  (u i j k - u i j (k - 1)) * (eps * eps / h)

/-- `diff_term`, source/fortran/2d/quatrhs.m4:321-326. -/
noncomputable def div2 (dx dy : ℝ) (f0 f1 : Field2) (i j : ℤ) : ℝ :=
  (f0 (i + 1) j - f0 i j) * (1 / dx) + (f1 i (j + 1) - f1 i j) * (1 / dy)

/-- `diff_term`, source/fortran/3d/quatrhs.m4. -/
noncomputable def div3 (dx dy dz : ℝ) (f0 f1 f2 : Field3) (i j k : ℤ) : ℝ :=
  (f0 (i + 1) j k - f0 i j k) * (1 / dx) + (f1 i (j + 1) k - f1 i j k) * (1 / dy)
    + (f2 i j (k + 1) - f2 i j k) * (1 / dz)

/-! ## One order parameter -/

/-- The cell-local part of `computerhspbg` (source/fortran/2d/quatrhs.m4:328-401, source/fortran/3d/quatrhs.m4:430-511): `diff` is the
divergence already formed; `eta`, `temp`, `ogm` are the values in the cell.  `three` and `orient` are the
integer flags `three_phase /= 0`, `with_orient /= 0`. -/
noncomputable def pbgCell (phiWell etaWell interp o1 o2 : Char) (phiScale etaScale misor epsq : ℝ)
    (three orient : Bool) (diff phi eta temp ogm : ℝ) : Option ℝ := do
  let gp ← derivWellFunc phiWell phi
  let r := diff - phiScale * gp
  let r ← if three then do
      let hp ← derivInterpFunc interp phi
      let g ← wellFunc etaWell eta
      some (r - etaScale * hp * g)
    else some r
  if orient then do
      let p1 ← derivInterpFunc o1 phi
      let p2 ← derivInterpFunc o2 phi
      some (r - misor * temp * p1 * ogm - p2 * (0.5 * epsq * epsq) * ogm * ogm)
    else some r

/-- `phaserhs_fenergy`, source/fortran/2d/quatrhs.m4:587-632 (3d the same, 714-760). -/
noncomputable def fenergyCell (interp : Char) (fl fa phi rhs : ℝ) : Option ℝ := do
  let hp ← derivInterpFunc interp phi
  some (rhs + hp * (fl - fa))

/-- `PhaseRHSStrategyWithQ::evaluateRHS` before the mobility is applied
(source/PhaseRHSStrategyWithQ.cc:240-276) for a run without orientation and without eta, with the free energy
strategy whose driving force is `phaserhs_fenergy` (source/PhaseFreeEnergyStrategy.cc:150,
source/TemperatureFreeEnergyStrategy.cc:160).  The well type is the constant 'd' of line 243. -/
noncomputable def phaseRate2 (interp : Char) (scale dx dy : ℝ) (f0 f1 fl fa phi : Field2) (i j : ℤ) : Option ℝ := do
  let r ← pbgCell 'd' 'd' interp 'c' 'c' scale 0 0 0 false false (div2 dx dy f0 f1 i j) (phi i j) 0 0 0
  fenergyCell interp (fl i j) (fa i j) (phi i j) r

/-- The same in 3D. -/
noncomputable def phaseRate3 (interp : Char) (scale dx dy dz : ℝ) (f0 f1 f2 fl fa phi : Field3) (i j k : ℤ) :
    Option ℝ := do
  let r ← pbgCell 'd' 'd' interp 'c' 'c' scale 0 0 0 false false (div3 dx dy dz f0 f1 f2 i j k) (phi i j k) 0 0 0
  fenergyCell interp (fl i j k) (fa i j k) (phi i j k) r

/-! ## Energies -/

/-- One cell of `phi_interface_energy`, source/fortran/2d/quatenergy.m4:150-165 (before the weight). -/
noncomputable def interfaceCell (eps dx dy : ℝ) (u : Field2) (i j : ℤ) : ℝ :=
  0.5 * eps * eps * (1 / dx ^ 2 * (-u (i + 1) j + 2 * u i j - u (i - 1) j)
    + 1 / dy ^ 2 * (-u i (j + 1) + 2 * u i j - u i (j - 1))) * u i j

/-- One cell of `phi_interface_energy`, source/fortran/3d/quatenergy.m4:190-215. -/
noncomputable def interfaceCell3 (eps dx dy dz : ℝ) (u : Field3) (i j k : ℤ) : ℝ :=
  0.5 * eps * eps * (1 / dx ^ 2 * (-u (i + 1) j k + 2 * u i j k - u (i - 1) j k)
    + 1 / dy ^ 2 * (-u i (j + 1) k + 2 * u i j k - u i (j - 1) k)
    + 1 / dz ^ 2 * (-u i j (k + 1) + 2 * u i j k - u i j (k - 1))) * u i j k

/-- One cell of the double-well loop of `quatenergy`, source/fortran/2d/quatenergy.m4:378-395. -/
noncomputable def wellCell (ty : Char) (scale phi : ℝ) : Option ℝ := do
  let g ← wellFunc ty phi
  some (scale * g)

/-- One cell of `bulkenergy`, source/fortran/2d/quatenergy.m4:438-450. -/
noncomputable def bulkCell (ty : Char) (fl fa phi : ℝ) : Option ℝ := do
  let h ← interpFunc ty phi
  some ((1 - h) * fl + h * fa)

/-- A loop `e = ...; total = total + e*weight` over the listed cells. -/
noncomputable def accumulate {ι : Type} (cell : ι → Option ℝ) (weight : ι → ℝ) (l : List ι) : Option ℝ :=
  l.foldlM (fun acc c => (cell c).map fun e => acc + e * weight c) 0

/-- Total energy of one patch `lo0..hi0 × lo1..hi1`: interface, well and bulk parts of source/fortran/2d/quatenergy.m4
added up (the evaluation without anisotropy and orientation), for the default `phi_well_func_type = double`; the energy with
another well is `Options.reportedEnergy`. -/
noncomputable def energy2 (interp : Char) (eps scale dx dy : ℝ) (fl fa : Field2) (weight : ℤ × ℤ → ℝ)
    (lo0 hi0 lo1 hi1 : ℤ) (u : Field2) : Option ℝ := do
  let cells := loop2 lo0 hi0 lo1 hi1
  let a ← accumulate (fun c => some (interfaceCell eps dx dy u c.1 c.2)) weight cells
  let b ← accumulate (fun c => wellCell 'd' scale (u c.1 c.2)) weight cells
  let d ← accumulate (fun c => bulkCell interp (fl c.1 c.2) (fa c.1 c.2) (u c.1 c.2)) weight cells
  some (a + b + d)

/-- Loop nest `do k, do j, do i`. -/
def loop3 (lo0 hi0 lo1 hi1 lo2 hi2 : ℤ) : List (ℤ × ℤ × ℤ) :=
  (List.range (hi2 - lo2 + 1).toNat).flatMap fun c : ℕ =>
    (loop2 lo0 hi0 lo1 hi1).map fun p => (p.1, p.2, lo2 + (c : ℤ))

/-- Total energy of one patch in 3D. -/
noncomputable def energy3 (interp : Char) (eps scale dx dy dz : ℝ) (fl fa : Field3) (weight : ℤ × ℤ × ℤ → ℝ)
    (lo0 hi0 lo1 hi1 lo2 hi2 : ℤ) (u : Field3) : Option ℝ := do
  let cells := loop3 lo0 hi0 lo1 hi1 lo2 hi2
  let a ← accumulate (fun c => some (interfaceCell3 eps dx dy dz u c.1 c.2.1 c.2.2)) weight cells
  let b ← accumulate (fun c => wellCell 'd' scale (u c.1 c.2.1 c.2.2)) weight cells
  let d ← accumulate (fun c => bulkCell interp (fl c.1 c.2.1 c.2.2) (fa c.1 c.2.1 c.2.2) (u c.1 c.2.1 c.2.2))
    weight cells
  some (a + b + d)

/-! ## Three phases -/

/-- `computerhsthreephases`, source/fortran/2d/quatrhs.m4:411-497, in one cell: `diff p` is the divergence of phase `p`'s
flux; the well term of phase `p` uses the two other phases (`ip1`, `ip2`, 453-454); the second loop subtracts
the mean (483-494). -/
noncomputable def threeCell (scale : ℝ) (diff phi : Fin 3 → ℝ) (p : Fin 3) : ℝ :=
  let r : Fin 3 → ℝ := fun p => diff p - scale * derivTripleWellFunc (phi p) (phi (p + 1)) (phi (p + 2))
  r p - (r 0 + r 1 + r 2) * (1 / 3)

/-- `TiltingFolchPlapp2005::g0`, source/TiltingFolchPlapp2005.cc:17-26. -/
noncomputable def fpG0 (p0 p1 p2 : ℝ) : ℝ :=
  if p0 < 0 then 0 else if p0 > 1 then 1 else
    0.25 * p0 * p0 * (15 * (1 - p0) * (1 + p0 - (p2 - p1) * (p2 - p1)) + p0 * (9 * p0 * p0 - 5))

/-- `TiltingFolchPlapp2005::dg0dp0`, 28-39. -/
noncomputable def fpD00 (p0 p1 p2 : ℝ) : ℝ :=
  if p0 < 0 then 0 else if p0 > 1 then 0 else
    2.5 * p0 * ((p2 - p1) * (p2 - p1) * (3 * p0 - 2) + (1 - p0) * (1 - p0) * (3 * p0 + 2))

/-- `TiltingFolchPlapp2005::dg0dp1`, 41-53. -/
noncomputable def fpD01 (p0 p1 p2 : ℝ) : ℝ :=
  if p0 < 0 then 0 else if p0 > 1 then 0 else if p1 < 0 then 0 else if p1 > 1 then 0 else
    -0.5 * fpD00 p1 p0 p2 + 7.5 * (p1 * p1 * (1 - p1) * (p2 - p0))

/-- `TiltingMoelans2011::g0`, source/TiltingMoelans2011.cc:17-22. -/
noncomputable def moG0 (p0 p1 p2 : ℝ) : ℝ :=
  if p0 < 0 then 0 else p0 * p0 / (p0 * p0 + p1 * p1 + p2 * p2)

/-- `TiltingMoelans2011::dg0dp0`, 24-32. -/
noncomputable def moD00 (p0 p1 p2 : ℝ) : ℝ :=
  if p0 < 0 then 0 else
    let a := p0 * p0 + p1 * p1 + p2 * p2
    2 * p0 * (2 * p1 * p1 + 2 * p2 * p2 + p0 * p1 + p0 * p2) / (3 * a * a)

/-- `TiltingMoelans2011::dg0dp1`, 34-41. -/
noncomputable def moD01 (p0 p1 p2 : ℝ) : ℝ :=
  if p0 < 0 then 0 else
    let a := p0 * p0 + p1 * p1 + p2 * p2
    2 * p0 * (p0 * (p2 - 2 * p1) - (p1 * p1 + p2 * p2)) / (3 * a * a)

/-- The driving force added by `addDrivingForceOnPatch`, source/CALPHADFreeEnergyStrategyBinaryThreePhase.cc:637-659.
`D00`, `D01` are the tilting derivatives; `wl = fl - mu*cl`, `wa`, `wb` likewise. -/
noncomputable def threeDriving (D00 D01 : ℝ → ℝ → ℝ → ℝ) (phi : Fin 3 → ℝ) (wl wa wb : ℝ) (p : Fin 3) : ℝ :=
  let p0 := phi 0
  let p1 := phi 1
  let p2 := phi 2
  let r : Fin 3 → ℝ := ![
    D00 p0 p1 p2 * wl + D01 p1 p0 p2 * wa + D01 p2 p0 p1 * wb,
    D00 p1 p0 p2 * wa + D01 p0 p1 p2 * wl + D01 p2 p1 p0 * wb,
    D00 p2 p1 p0 * wb + D01 p1 p2 p0 * wa + D01 p0 p2 p1 * wl]
  let corr := (r 0 + r 1 + r 2) / 3
  corr - r p

/-- `projectphi2d`, source/fortran/2d/phase.m4:51-109, the correction in one cell. -/
noncomputable def projectCorr (depth : ℕ) (phi : Fin depth → ℝ) (m : Fin depth) : ℝ :=
  (phi m - ((∑ k, phi k) - 1) * (1 / (depth : ℝ))) - phi m

/-- `projectphi2d`, the error update in one cell. -/
noncomputable def projectErr (depth : ℕ) (err : Fin depth → ℝ) (m : Fin depth) : ℝ :=
  err m - (∑ k, err k) * (1 / (depth : ℝ))

/-! ## Multi-order parameters -/

/-- The well force in `computerhsmultiorder`, source/fortran/2d/multiorder.m4:67-101 (3d the same): `phi2sum` is
accumulated first, then `dsum = phi2sum - phi`. -/
noncomputable def multiWell (n : ℕ) (gamma m : ℝ) (phi : Fin n → ℝ) (p : Fin n) : ℝ :=
  let phi2sum := ∑ k, phi k * phi k
  let g := phi p * phi p * phi p - phi p
  let dsum := phi2sum - phi p
  let g' := g + 2 * phi p * gamma * dsum
  0 - m * g'

/-- `computerhs_wang_sintering`, source/fortran/2d/sintering.m4:16-102, one cell. -/
noncomputable def wangRate (n : ℕ) (beta b conc : ℝ) (diff phi : Fin n → ℝ) (p : Fin n) : ℝ :=
  beta * diff p - 12 * b * ((1 - conc) * phi p - (2 - conc) * phi p * phi p + (∑ k, phi k * phi k) * phi p)

/-- The force added by `phaserhs_fenergy_multiorderp`, source/fortran/2d/quatrhs.m4:636-689, in one cell with `n + 1` order
parameters, the last one being the liquid. -/
noncomputable def multiDriving (n : ℕ) (fl fa : ℝ) (phi : Fin (n + 1) → ℝ) (p : Fin (n + 1)) : ℝ :=
  let s := ∑ k : Fin n, phi k.castSucc * phi k.castSucc
  let l := phi (Fin.last n) * phi (Fin.last n)
  let inv := 1 / (s + l)
  if p = Fin.last n then 2 * phi (Fin.last n) * (s * inv) * inv * (fa - fl)
  else 2 * phi p * (l * inv) * inv * (fl - fa)

/-- The force added by `QuadraticFreeEnergyStrategyMultiOrderTernaryThreePhase::addDrivingForceOnPatch`,
...ThreePhase.cc:455-510: order parameters `0..nA-1` are phase A, `nA..n-1` phase B, the last one liquid.
`dfl`, `dfa`, `dfb` are `f - mu·c`. -/
noncomputable def ternaryDriving (n nA : ℕ) (dfl dfa dfb : ℝ) (phi : Fin (n + 1) → ℝ) (p : Fin (n + 1)) : ℝ :=
  let a := ∑ k : Fin n, if k.val < nA then phi k.castSucc * phi k.castSucc else 0
  let b := ∑ k : Fin n, if k.val < nA then 0 else phi k.castSucc * phi k.castSucc
  let l := phi (Fin.last n) * phi (Fin.last n)
  let inv := 1 / (l + a + b)
  let hl := l * inv
  let hA := a * inv
  let hB := b * inv
  let r := (if p = Fin.last n then 2 * phi p * ((1 - hl) * dfl - hA * dfa - hB * dfb) * inv
    else if p.val < nA then 2 * phi p * ((1 - hA) * dfa - hl * dfl - hB * dfb) * inv
    else 2 * phi p * ((1 - hB) * dfb - hl * dfl - hA * dfa) * inv)
  0 - r

/-! ## Moving frame -/

/-- `addvdphidx`, source/fortran/2d/quatrhs.m4:986-1024, one row. -/
noncomputable def convect (dx vel : ℝ) (phase : ℤ → ℝ) (i : ℤ) : ℝ :=
  0.5 * vel / dx * (phase (i + 1) - phase (i - 1))

/-- `addvdphidx_upwind3`, source/fortran/2d/quatrhs.m4:1029-1080, one row: what is added to `rhs(i)` for
`ifirst ≤ i ≤ ilast`; at a physical upper boundary the last cell uses the centred difference. -/
noncomputable def convectUpwind3 (dx vel : ℝ) (phase : ℤ → ℝ) (physb : Bool) (ilast : ℤ) (i : ℤ) : ℝ :=
  let dxinv := vel / (6 * dx)
  if physb = true ∧ i = ilast then 3 * dxinv * (phase (ilast + 1) - phase (ilast - 1))
  else dxinv * (-2 * phase (i - 1) - 3 * phase i + 6 * phase (i + 1) - phase (i + 2))

/-! ## Driving forces from temperature -/

/-- `computerhsbiaswell`, source/fortran/2d/quatrhs.m4:810-850. -/
noncomputable def biasWell (alpha gamma te temp phi : ℝ) : ℝ :=
  alpha / (4 * Real.arctan 1) * Real.arctan (gamma * (te - temp)) * phi * (1 - phi)

/-- `computerhsbiaswellbeckermann`, source/fortran/2d/quatrhs.m4:853-890. -/
noncomputable def biasWellBeckermann (alpha te temp phi : ℝ) : ℝ :=
  alpha * (te - temp) * phi * (1 - phi)

/-- `computerhsdeltatemperature`, source/fortran/2d/quatrhs.m4:893-941, what is added in one cell. -/
noncomputable def deltaTemperature (interp : Char) (tm latent : ℝ) (temp : Field2) (phi : ℝ) (i j : ℤ) : Option ℝ := do
  let w := 0.75 * temp i j + 0.0625 * (temp (i - 1) j + temp i (j - 1) + temp (i + 1) j + temp i (j + 1))
  let hp ← derivInterpFunc interp phi
  some (latent / tm * (tm - w) * hp)

/-- `computedphidtemperaturedeltatemperature`, source/fortran/2d/quatrhs.m4:944-983. -/
noncomputable def dDeltaTemperature (interp : Char) (tm latent mobility phi : ℝ) : Option ℝ := do
  let hp ← derivInterpFunc interp phi
  some (mobility * latent / tm * hp)

end AMPE.PhaseRHS
