import Verif.Model.PhaseRHS
import Mathlib.Analysis.SpecialFunctions.Sqrt

/-! # Interface energy and width requested in the input, and the rates built from them (2D) -/

namespace AMPE.Interface

open AMPE.Functions AMPE.Flux AMPE.PhaseRHS

/-- `sigma` and `delta` of the block `Interface` to (`d_epsilon_phase`, `d_phase_well_scale`),
source/QuatModelParameters.cc:837-847. -/
noncomputable def readInterface (sigma delta : ℝ) : ℝ × ℝ := (Real.sqrt (6 * sigma * delta), (3 * sigma / delta) / 16)

/-- `epsilon` handed to the flux routines, source/PhaseFluxStrategyFactory.h:16-22. -/
noncomputable def fluxEpsilon (norderp : ℕ) (threePhases : Bool) (epsilon : ℝ) : ℝ :=
  if norderp > 1 ∧ threePhases = false then epsilon / Real.sqrt 2 else epsilon

/-- `d_m`, source/MultiOrderRHSStrategy.cc:49 (and `m_moelans2011`, source/QuatModelParameters.h:224). -/
noncomputable def multiOrderScale (wellScale : ℝ) : ℝ := 8 * wellScale

/-- `d_gamma`, source/QuatModelParameters.cc:40 (no input key changes it). -/
noncomputable def multiOrderGamma : ℝ := 1.5

/-- `readWangSintering` when `sigma` and `delta` are given, source/QuatModelParameters.cc:441-448: (A, B, beta_rho). -/
noncomputable def wangParameters (sigma delta : ℝ) : ℝ × ℝ × ℝ :=
  (5 * sigma / (4 * delta), sigma / (4 * delta), 3 * delta * sigma)

/-- `d_alpha_AT`, source/QuatIntegrator.cc:1426. -/
noncomputable def antitrappingWidth (epsilon wellScale : ℝ) : ℝ := epsilon / Real.sqrt (32 * wellScale)

/-- Divergence of the flux of one order parameter, source/PhaseFluxStrategySimple.cc:54-63 (`isotropic = false`) or
source/PhaseFluxStrategyIsotropic.cc:50-60. -/
noncomputable def fluxDiv (isotropic : Bool) (eps dx dy : ℝ) (u : Field2) (i j : ℤ) : ℝ :=
  if isotropic then div2 dx dy (isoFluxX eps dx u) (isoFluxY eps dy u) i j
  else div2 dx dy (gradFluxX eps dx u) (gradFluxY eps dy u) i j

/-- Rate (before the mobility) of a single order parameter without driving force: source/PhaseRHSStrategyWithQ.cc:240-262. -/
noncomputable def singleRate (iso : Bool) (eps well dx dy : ℝ) (u : Field2) (i j : ℤ) : Option ℝ :=
  pbgCell 'd' 'd' 'p' 'c' 'c' well 0 0 0 false false (fluxDiv iso (fluxEpsilon 1 false eps) dx dy u i j) (u i j) 0 0 0

/-- Rate of `n` order parameters without driving force: source/MultiOrderRHSStrategy.cc:197-209. -/
noncomputable def multiRate (n : ℕ) (iso : Bool) (eps well dx dy : ℝ) (u : Fin n → Field2) (p : Fin n) (i j : ℤ) : ℝ :=
  fluxDiv iso (fluxEpsilon n false eps) dx dy (u p) i j
    + multiWell n multiOrderGamma (multiOrderScale well) (fun k => u k i j) p

/-- Rate of three phases without driving force: source/ThreePhasesRHSStrategy.cc:201-212. -/
noncomputable def threeRate (iso : Bool) (eps well dx dy : ℝ) (u : Fin 3 → Field2) (p : Fin 3) (i j : ℤ) : ℝ :=
  threeCell well (fun k => fluxDiv iso (fluxEpsilon 3 true eps) dx dy (u k) i j) (fun k => u k i j) p

/-- Rate of the order parameters of the sintering model: source/SinteringUWangRHSStrategy.cc:28-30, 190-204 (`d_beta` is
`epsilon_phase`). -/
noncomputable def sinterRate (n : ℕ) (iso : Bool) (eps b dx dy : ℝ) (conc : Field2) (u : Fin n → Field2) (p : Fin n) (i j : ℤ) : ℝ :=
  wangRate n eps b (conc i j) (fun k => fluxDiv iso (fluxEpsilon n false eps) dx dy (u k) i j) (fun k => u k i j) p

end AMPE.Interface
