import Mathlib.Algebra.BigOperators.Field
import Mathlib.Data.Real.Basic
import Mathlib.Data.Finset.Lattice.Fold

/-!
# The two copies of the temperature and what is reported of it

The temperature is stored twice: `d_temperature_id` ("current": saved, plotted, used for the energies) and
`d_temperature_scratch_id` ("scratch", with ghost cells: used for the rates).  Who writes and who reads which copy:
`QuatIntegrator::setTemperatureField`, `fillScratch` and `evaluateRHSFunction` (source/QuatIntegrator.h:321-328,
source/QuatIntegrator.cc:2931-2955, 3191-3202), the temperature strategies (source/ScalarTemperatureStrategy.cc,
source/GaussianTemperatureStrategy.cc, source/GradientTemperatureStrategy.cc, source/SteadyStateTemperatureStrategy.h,
source/SteadyStateTemperatureGaussianSource.cc, source/SteadyStateTemperatureCompositionSource.cc, source/ConstantTemperatureStrategy.h), `QuatModel::evaluateEnergy`
(source/QuatModel.cc:4906, 4939-4960), `printScalarDiagnostics` (source/QuatModel.cc:2553-2600), `copyCurrentToScratch` (source/QuatModel.cc:1017-1021,
1067-1092), the plotted quantity (source/QuatModel.cc:1964-1967), the restart and initial-conditions files (source/QuatModel.cc:1754-1755, 3617).

The mesh does not change; a field is its values in the cells; ghost cells are not modelled, so a copy with ghost filling is
a copy.
-/

namespace AMPE.TempReport

variable {ι X : Type}

/-- The two copies. -/
structure Mem (ι : Type) where
  cur : ι → ℝ
  scr : ι → ℝ

/-- The temperature model (source/TemperatureStrategyFactory.cc:100-165).  `prof` is the prescribed field at a time, `rate` the cooling rate
`dtemperaturedt`; `sol` the solution of the steady equation at a time from whatever else the source reads (`X`, the composition)
and the current temperature (through the heat capacity, source/NKRHeatCapacityStrategy.cc with source/QuatModel.cc:211-213). -/
inductive Kind (ι X : Type) where
  | uniform (T : ℝ → ℝ) (rate : ℝ)
  | gaussian (prof : ℝ → ι → ℝ) (rate : ℝ)
  | gradient (prof : ℝ → ι → ℝ)
  | steady (sol : ℝ → X → (ι → ℝ) → ι → ℝ)
  | unsteady
  | file

/-- `setCurrentTemperature`: source/ScalarTemperatureStrategy.cc:76-90, source/GaussianTemperatureStrategy.cc:132-159,
source/GradientTemperatureStrategy.cc:100-169, source/SteadyStateTemperatureGaussianSource.cc:73-163 and
source/SteadyStateTemperatureCompositionSource.cc:44-96 with `solveSystem` (source/SteadyStateTemperatureStrategy.h:79-82),
source/ConstantTemperatureStrategy.h:65-70; not called with the unsteady heat equation (source/QuatIntegrator.h:324). -/
noncomputable def setTemperature (k : Kind ι X) (t : ℝ) (x : X) (m : Mem ι) : Mem ι :=
  match k with
  | .uniform T rate => if rate ≠ 0 ∨ t = 0 then ⟨fun _ => T t, fun _ => T t⟩ else m
  | .gaussian prof rate => if rate ≠ 0 ∨ t = 0 then ⟨prof t, prof t⟩ else m
  | .gradient prof => ⟨prof t, prof t⟩
  | .steady sol => { m with scr := sol t x m.cur }
  | .unsteady => m
  | .file => m

/-- `fillScratch`, source/QuatIntegrator.cc:2931-2946; `y` is the temperature of the state the rates are asked for. -/
def fillScratch (k : Kind ι X) (y : ι → ℝ) (m : Mem ι) : Mem ι :=
  match k with
  | .unsteady => { m with scr := y }
  | _ => m

/-- `copyCurrentToScratch`, source/QuatModel.cc:1067-1092 with 1017-1021. -/
def copyToScratch (m : Mem ι) : Mem ι := { m with scr := m.cur }

/-- What happens to the two copies during a run after the start. -/
inductive Event (ι X : Type) where
  /-- the solver asks for the rates at a time and state -/
  | rates (t : ℝ) (x : X) (y : ι → ℝ)
  /-- the solver accepts a step; with the unsteady heat equation the current copy is a component of the solution vector
  (source/QuatIntegrator.cc:1648-1652) -/
  | accept (y : ι → ℝ)
  /-- `evaluateEnergy`, also the beginning of `printScalarDiagnostics`; smoothing, extension and tagging do the same copy -/
  | energy

noncomputable def step (k : Kind ι X) (m : Mem ι) : Event ι X → Mem ι
  | .rates t x y => fillScratch k y (setTemperature k t x m)
  | .accept y => match k with
    | .unsteady => { m with cur := y }
    | _ => m
  | .energy => copyToScratch m

noncomputable def run (k : Kind ι X) (m : Mem ι) (es : List (Event ι X)) : Mem ι := es.foldl (step k) m

/-- The temperature the rates are computed with (source/QuatIntegrator.cc:1973-2008, 2406, 2534, 3068: the scratch copy). -/
noncomputable def used (k : Kind ι X) (m : Mem ι) (t : ℝ) (x : X) (y : ι → ℝ) : ι → ℝ := (step k m (.rates t x y)).scr

/-- The start of a run (new or restarted) at time 0 of the prescribed fields: source/QuatModel.cc:676-680, then line 701. -/
noncomputable def start (k : Kind ι X) (x : X) (m : Mem ι) : Mem ι :=
  copyToScratch (match k with
    | .uniform _ _ => setTemperature k 0 x m
    | .gaussian _ _ => setTemperature k 0 x m
    | .gradient _ => setTemperature k 0 x m
    | _ => m)

variable [Fintype ι] [Nonempty ι]

/-- `HierarchyCellDataOpsReal::min` and `max`. -/
noncomputable def cellMin (u : ι → ℝ) : ℝ := Finset.univ.inf' Finset.univ_nonempty u

noncomputable def cellMax (u : ι → ℝ) : ℝ := Finset.univ.sup' Finset.univ_nonempty u

/-- `integral / sumControlVolumes`. -/
noncomputable def cellMean (w u : ι → ℝ) : ℝ := (∑ i, u i * w i) / ∑ i, w i

/-- The three numbers printed as "Min.", "Max." and "Average Temperature" at time `t`, source/QuatModel.cc:2588-2600. -/
structure Printed where
  lo : ℝ
  hi : ℝ
  mean : ℝ

/-- `getCurrentMinTemperature`, `getCurrentMaxTemperature`, `getCurrentAverageTemperature`: source/ScalarTemperatureStrategy.cc:33-55,
source/GaussianTemperatureStrategy.cc:68-93, source/GradientTemperatureStrategy.cc:69-97, source/SteadyStateTemperatureStrategy.h:46-70,
source/ConstantTemperatureStrategy.h:35-63; printed after `evaluateEnergy` (source/QuatModel.cc:2557). -/
noncomputable def printed (k : Kind ι X) (w : ι → ℝ) (t : ℝ) (m : Mem ι) : Printed :=
  let m := copyToScratch m
  match k with
  | .uniform T _ => ⟨T t, T t, T t⟩
  | .gaussian _ _ => ⟨cellMin m.scr, cellMax m.scr, cellMean w m.cur⟩
  | .gradient _ => ⟨cellMin m.cur, cellMax m.cur, 0.5 * (cellMax m.cur + cellMin m.cur)⟩
  | .steady _ => ⟨cellMin m.scr, cellMax m.scr, cellMean w m.scr⟩
  | .unsteady => ⟨cellMin m.cur, cellMax m.cur, cellMean w m.cur⟩
  | .file => ⟨cellMin m.cur, cellMax m.cur, cellMean w m.cur⟩

/-- The temperature plotted, saved, and used for the free energies and the thermal energy reported (source/QuatModel.cc:1966, 1755, 4939-4952,
5389-5391). -/
def shown (m : Mem ι) : ι → ℝ := m.cur

end AMPE.TempReport
