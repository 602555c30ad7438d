import Mathlib.Algebra.Order.Archimedean.Real.Basic
import Mathlib.Analysis.SpecialFunctions.Sqrt

/-!
# Fluctuations added to the phase rate

`Noise::setField` (source/Noise.cc:15-73), `UniformNoise` (source/UniformNoise.cc:13-26, source/UniformNoise.h:18-45), its use in
`PhaseRHSStrategyWithQ::evaluateRHS` (source/PhaseRHSStrategyWithQ.cc:91-141, 298-311), the seed (source/PhaseRHSStrategyWithQ.cc:301-302), the choice
of strategy (source/QuatIntegrator.cc:1970-2001), the initial time of the last step of a new time integrator object
(source/samrai/CVODESolver.cc:51-53, source/samrai/CVODESolver.h:317-318, 734-737).

The generator is boost's `minstd_rand` behind `uniform_real<>(-0.5, 0.5)`: multiplier 48271, modulus 2³¹ - 1, a seed that is zero modulo
the modulus is replaced by one, and a state `x` is turned into `(x - 1)/(2³¹ - 2) - 1/2`.  This is a description of the library, not of
code in the repository.
-/

namespace AMPE.Noise

/-! ## The generator -/

/-- Modulus and multiplier of `minstd_rand`. -/
def modulus : ℕ := 2147483647
def multiplier : ℕ := 48271

/-- State after seeding: source/UniformNoise.cc:20-21. -/
def seeded (seed : ℕ) : ℕ := if seed % modulus = 0 then 1 else seed % modulus

/-- State after one draw. -/
def advance (x : ℕ) : ℕ := multiplier * x % modulus

/-- State after `n` draws. -/
def states (seed : ℕ) : ℕ → ℕ
  | 0 => seeded seed
  | n + 1 => advance (states seed n)

/-- `uniform_real<>(-0.5, 0.5)` of a state. -/
noncomputable def toUniform (x : ℕ) : ℝ := ((x : ℝ) - 1) / ((modulus : ℝ) - 1) - 1 / 2

/-- The `n`-th number of the process with rank `rank`: source/PhaseRHSStrategyWithQ.cc:301-302, source/UniformNoise.h:30. -/
noncomputable def gen (rank n : ℕ) : ℝ := toUniform (states rank (n + 1))

/-! ## The field -/

/-- A box with its ghost widths, index extents in the three directions. -/
structure Box3 where
  lo : Fin 3 → ℤ
  hi : Fin 3 → ℤ

/-- Box enlarged by ghost cells. -/
def Box3.grow (b : Box3) (g : Fin 3 → ℤ) : Box3 := ⟨fun d => b.lo d - g d, fun d => b.hi d + g d⟩

/-- `numberCells`. -/
def Box3.cells (b : Box3) (d : Fin 3) : ℤ := b.hi d - b.lo d + 1

/-- Registers of the loop: positions in the two arrays, numbers drawn, content of the array written. -/
structure St where
  idx : ℤ
  idxPhi : ℤ
  drawn : ℕ
  data : ℤ → ℝ

/-- Body of the innermost loop, source/Noise.cc:58-62; `g` is the stream of the generator. -/
noncomputable def cell (g : ℕ → ℝ) (phi : ℤ → ℝ) (s : St) : St :=
  ⟨s.idx + 1, s.idxPhi + 1, s.drawn + 1,
    Function.update s.data s.idx (g s.drawn * 4 * phi s.idxPhi * (1 - phi s.idxPhi))⟩

/-- A row and the shift to the next one, source/Noise.cc:56-65. -/
noncomputable def row (g : ℕ → ℝ) (phi : ℤ → ℝ) (nx : ℕ) (gap : ℤ) (s : St) : St :=
  let t := (cell g phi)^[nx] s
  { t with idxPhi := t.idxPhi + gap }

/-- A plane and the shift to the next one, source/Noise.cc:55-68. -/
noncomputable def plane (g : ℕ → ℝ) (phi : ℤ → ℝ) (nx ny : ℕ) (gap gap2 : ℤ) (s : St) : St :=
  let t := (row g phi nx gap)^[ny] s
  { t with idxPhi := t.idxPhi + gap2 }

/-- `Noise::setField`, source/Noise.cc:15-73; `b` the patch, `gd`, `gp` the ghost widths of the noise and of the phase, `first` the
number of values drawn before. -/
noncomputable def setField (g : ℕ → ℝ) (first : ℕ) (b : Box3) (gd gp : Fin 3 → ℤ) (phi : ℤ → ℝ) (data : ℤ → ℝ) : ℤ → ℝ :=
  let gb := b.grow gd
  let pb := b.grow gp
  let incj := pb.cells 0
  let inck := incj * pb.cells 1
  let start := (gb.lo 0 - pb.lo 0) + (gb.lo 1 - pb.lo 1) * incj + (gb.lo 2 - pb.lo 2) * inck
  ((plane g phi (gb.cells 0).toNat (gb.cells 1).toNat (2 * (gp 0 - gd 0)) (2 * incj * (gp 1 - gd 1)))^[(gb.cells 2).toNat]
    ⟨0, start, first, data⟩).data

/-- Position of a cell in the array of a box (cell-centred data, x fastest). -/
def position (b : Box3) (i j k : ℤ) : ℤ := (i - b.lo 0) + (j - b.lo 1) * b.cells 0 + (k - b.lo 2) * (b.cells 0 * b.cells 1)

/-! ## When it is drawn and how it is scaled -/

/-- Registers: `old_time`, `d_deltat`; the noise field (`none`: never written on the current mesh), and how many fields have been drawn. -/
structure Clock where
  old : ℝ
  deltat : ℝ
  field : Option ℕ
  count : ℕ

/-- Before the first evaluation: source/PhaseRHSStrategyWithQ.cc:68, 104. -/
def clock0 : Clock := ⟨-1, 1000000000, none, 0⟩

/-- One evaluation at time `t`: source/PhaseRHSStrategyWithQ.cc:110-121, 139, 298-311.  `last` is the time of the last accepted step as
the time integrator object reports it, `eval` is false for finite differences.  The second component is what is added to the rate:
`none` nothing, otherwise the field used (`none`: uninitialised memory) and the time the amplitude is divided by the root of. -/
noncomputable def evaluate (noise : Bool) (last t : ℝ) (eval : Bool) (c : Clock) : Clock × Option (Option ℕ × ℝ) :=
  let new := decide (t ≠ c.old) && eval
  let dt := if new then t - last else c.deltat
  let on := noise && decide (0 < dt)
  let field := if on && new then some c.count else c.field
  (⟨t, dt, field, if on && new then c.count + 1 else c.count⟩, if on then some (field, dt) else none)

/-- Regridding: the noise is not transferred to the new levels (it is part of `d_local_data`, source/QuatIntegrator.cc:977-983, 1809-1824). -/
def remeshed (c : Clock) : Clock := { c with field := none }

/-- Term added to the rate of a cell, source/PhaseRHSStrategyWithQ.cc:309-310. -/
noncomputable def term (amplitude dt noise : ℝ) : ℝ := amplitude / Real.sqrt dt * noise

/-- Strategies for the phase rate, source/QuatIntegrator.cc:1970-2001. -/
inductive Strategy | threePhases | sintering | multiOrder | withQ
  deriving DecidableEq

/-- Choice of the strategy. -/
def strategy (threePhases : Bool) (norderp : ℕ) (conc wang : Bool) : Strategy :=
  if threePhases then .threePhases
  else if 1 < norderp then (if conc && wang then .sintering else .multiOrder)
  else .withQ

/-- Only `PhaseRHSStrategyWithQ` adds noise. -/
def addsNoise : Strategy → Bool
  | .withQ => true
  | _ => false

end AMPE.Noise
