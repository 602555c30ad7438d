import Verif.Model.TemperatureHistory
import Verif.Model.Thermal

/-!
The temperature field prescribed by a temperature-history file: reading the file, following the
moving frame, and setting the field from the lookup of `Verif.Model.TemperatureHistory`.
-/

namespace AMPE.HistoryField

open AMPE.TemperatureHistory AMPE.Thermal

/-- A line of the file, source/TemperatureHistory.cc:24-31: a line starting with `#` is skipped,
any other is cut at the commas. A field is its value under `std::stod`, or `none` when `stod`
throws (an empty or blank line is a line with one such field). -/
inductive Line where
  | comment
  | data (fields : List (Option ℝ))

/-- source/TemperatureHistory.cc:22-31, `csvData`. -/
def csvData : List Line → List (List (Option ℝ))
  | [] => []
  | .comment :: ls => csvData ls
  | .data f :: ls => f :: csvData ls

/-- source/TemperatureHistory.cc:43-61: a row, its first column is the time, the other columns are
reversed; their number is asserted to be that of the positions (line 56). -/
def readRow (n : ℕ) (fields : List (Option ℝ)) : Option (ℝ × List ℝ) := do
  let v ← fields.mapM id
  match v with
  | [] => none
  | t :: r => if r.length = n then some (t, r.reverse) else none

/-- source/TemperatureHistory.cc:14-67, `readCSV`; `none` when a conversion throws, an assertion
fails or there is no first row (`csvData[0]`, line 34). -/
def readCSV (ls : List Line) : Option Table :=
  match csvData ls with
  | [] => none
  | h :: rest => do
    let ps ← h.mapM id
    let rows ← rest.mapM (readRow ps.length)
    some ⟨rows.map Prod.fst, ps.reverse, rows.map Prod.snd⟩

/-- `resetVelocity` with a temperature history, source/GradientTemperatureStrategy.h:36-48. -/
def resetVelocityH (f : Frame) (time vel : ℝ) : Frame :=
  ⟨f.center + (time - f.time) * f.vel, time, vel⟩

/-- Velocity changes at given times, source/QuatIntegrator.cc:2199-2212. -/
def frameAfterH (f : Frame) (rs : List (ℝ × ℝ)) : Frame :=
  rs.foldl (fun f r => resetVelocityH f r.1 r.2) f

/-- `d_center[0]` with a history, source/GradientTemperatureStrategy.cc:113. -/
def centerH (f : Frame) (time : ℝ) : ℝ := f.center + (time - f.time) * f.vel

/-- Cell centre of `initgradient`, source/fortran/2d/temperature.m4:274-278. -/
noncomputable def cellX (xlo dx : ℝ) (ifirst ic : ℤ) : ℝ := xlo + dx * (((ic - ifirst : ℤ) : ℝ) + 1 / 2)

/-- `setCurrentTemperature` with a history at the point `(x, y)` of the computational domain,
source/GradientTemperatureStrategy.cc:100-124 and :173-211: temperature and gradient of the
history at the current centre, the lower corner of the patch moved by `d_center - d_init_center`
(second component: both are the `center` of the input); `none` when the program stops (line 124) or
the lookup has undefined behaviour. -/
noncomputable def setHistory2 (tb : Table) (f : Frame) (init0 c1 : ℝ) (time x y : ℝ) : Option ℝ :=
  match getTandGradT tb time (centerH f time) with
  | .ok T g => some (gradT2 T (centerH f time) c1 g 0 (x + (centerH f time - init0)) (y + (c1 - c1)))
  | .outOfRange => none
  | .undefined => none

/-- The same in three dimensions. -/
noncomputable def setHistory3 (tb : Table) (f : Frame) (init0 c1 c2 : ℝ) (time x y z : ℝ) : Option ℝ :=
  match getTandGradT tb time (centerH f time) with
  | .ok T g => some (gradT3 T (centerH f time) c1 c2 g 0 0 (x + (centerH f time - init0))
      (y + (c1 - c1)) (z + (c2 - c2)))
  | .outOfRange => none
  | .undefined => none

/-- `getCurrentAverageTemperature`, source/GradientTemperatureStrategy.cc:87-96: half the sum of
the largest and the smallest value over the cells. -/
noncomputable def averageT {ι : Type} (cells : Finset ι) (h : cells.Nonempty) (T : ι → ℝ) : ℝ :=
  1 / 2 * (cells.sup' h T + cells.inf' h T)

end AMPE.HistoryField
