import Mathlib.Algebra.Order.Floor.Ring
import Mathlib.Data.Real.Archimedean
import Mathlib.Analysis.SpecialFunctions.Sqrt

/-!
# Scripts that tabulate the grain volumes of a log

`utils/grainVolumesEvolution.py`, `utils/grainCoringEvolution.py`, `utils/grainSizeDistribution.py`.

A log is a list of lines of four kinds: `cycle # n : t = t0 ...` (source/PFModel.cc:449-451, 470-475, source/QuatModel.cc:2566-2568),
`Volume of grain g = v` (source/Grains.cc:693-697), `Concentration deviation of grain g = c` (source/Grains.cc:872), and all others.  Text is read as the number
it stands for.  Lines with the words `Simulation` and `time`, which the program does not print, and other lines with the word `cycle` are left out.
The output is the list of pairs a script prints or plots; colours, axes and histograms of the plots are left out.  An exception is `none`.
-/

namespace AMPE.GrainScripts

/-- A line of the log. -/
inductive Line
  | cycle (t : ℝ)
  | volume (gid : ℕ) (v : ℝ)
  | deviation (gid : ℕ) (c : ℝ)
  | other

/-! ## Evolution of the volumes -/

/-- Variables of the loop over the lines. -/
structure St where
  time : ℝ
  found : Bool
  times : List ℝ
  vols : List (List ℝ)

/-- utils/grainVolumesEvolution.py:37-44, utils/grainCoringEvolution.py:41-46. -/
def st0 : St := ⟨0, true, [], []⟩

/-- `if gid>=len(vols): vols.append([])` and `vols[gid].append(volt)`, utils/grainVolumesEvolution.py:73-75; the second fails if the list is still
too short. -/
def addAt (vols : List (List ℝ)) (gid : ℕ) (v : ℝ) : Option (List (List ℝ)) :=
  let w := if vols.length ≤ gid then vols ++ [[]] else vols
  if gid < w.length then some (w.modify gid (· ++ [v])) else none

/-- A value of a grain is read, utils/grainVolumesEvolution.py:61-75 and utils/grainCoringEvolution.py:70-84. -/
def value (s : St) (gid : ℕ) (v : ℝ) : Option St :=
  (addAt s.vols gid v).map fun w => ⟨s.time, false, if s.found then s.times ++ [s.time] else s.times, w⟩

/-- One line in utils/grainVolumesEvolution.py:45-75. -/
def volumesLine (s : St) : Line → Option St
  | .cycle t => some { s with time := t, found := true }
  | .volume gid v => value s gid v
  | _ => some s

/-- One line in utils/grainCoringEvolution.py:47-84 (the volumes read there are not used). -/
noncomputable def coringLine (s : St) : Line → Option St
  | .cycle t => some { s with time := t, found := true }
  | .deviation gid c => value s gid (Real.sqrt c)
  | _ => some s

/-- Indices of `range(0, n, inc)`; a step of zero is an exception. -/
def steps (n inc : ℕ) : Option (List ℕ) := if inc = 0 then none else some ((List.range n).filter fun i => i % inc = 0)

/-- The pairs of one grain, utils/grainVolumesEvolution.py:95-106: `times[i]` fails if the list is too short. -/
def rows (inc : ℕ) (times vol : List ℝ) : Option (List (ℝ × ℝ)) :=
  (steps vol.length inc).bind fun l => l.mapM fun i => (times[i]?).bind fun t => (vol[i]?).map fun v => (t, v)

/-- `inc=len(times)/50; inc=max(1,inc)`, utils/grainVolumesEvolution.py:88-89. -/
def volumesInc (n : ℕ) : ℕ := max 1 (n / 50)

/-- `inc=len(times)/50`, utils/grainCoringEvolution.py:95. -/
def coringInc (n : ℕ) : ℕ := n / 50

/-- All pairs, grain by grain. -/
def table (inc : ℕ → ℕ) (s : St) : Option (List (List (ℝ × ℝ))) := s.vols.mapM fun vol => rows (inc s.times.length) s.times vol

/-- utils/grainVolumesEvolution.py. -/
def volumes (log : List Line) : Option (List (List (ℝ × ℝ))) := (log.foldlM volumesLine st0).bind (table volumesInc)

/-- utils/grainCoringEvolution.py. -/
noncomputable def coring (log : List Line) : Option (List (List (ℝ × ℝ))) := (log.foldlM coringLine st0).bind (table coringInc)

/-! ## Distribution of the sizes -/

/-- Variables of the loop: the time, the volumes being read, the dictionary. -/
structure Dict where
  time : ℝ
  vol : List ℝ
  vols : List (ℝ × List ℝ)

/-- utils/grainSizeDistribution.py:22-24. -/
def dict0 : Dict := ⟨0, [], []⟩

open Classical in
/-- `vols[time]=vol`. -/
noncomputable def assign (vols : List (ℝ × List ℝ)) (t : ℝ) (vol : List ℝ) : List (ℝ × List ℝ) := vols.filter (fun p => p.1 ≠ t) ++ [(t, vol)]

/-- `if gid>=len(vol): vol.append([])` and `vol[gid]=volume`, utils/grainSizeDistribution.py:48-50. -/
def setAt (vol : List ℝ) (gid : ℕ) (v : ℝ) : Option (List ℝ) :=
  if gid < vol.length then some (vol.set gid v) else if gid = vol.length then some (vol ++ [v]) else none

/-- `else: if len(vol)>0: ...`, utils/grainSizeDistribution.py:51-54. -/
noncomputable def flush (d : Dict) : Dict := if d.vol = [] then d else ⟨d.time, [], assign d.vols d.time d.vol⟩

/-- One line, utils/grainSizeDistribution.py:26-54: the time of a `cycle` line is taken over before the volumes read so far are stored. -/
noncomputable def sizesLine (d : Dict) : Line → Option Dict
  | .cycle t => some (flush { d with time := t })
  | .volume gid v => (setAt d.vol gid v).map fun w => { d with vol := w }
  | _ => some (flush d)

/-- The dictionary, utils/grainSizeDistribution.py:22-54. -/
noncomputable def sizes (log : List Line) : Option Dict := log.foldlM sizesLine dict0

/-- utils/grainSizeDistribution.py:56-61. -/
noncomputable def maxV (vols : List (ℝ × List ℝ)) : ℝ := vols.foldl (fun m p => p.2.foldl (fun m v => if v > m then v else m) m) 0

/-- Width of an interval, utils/grainSizeDistribution.py:64-65. -/
noncomputable def binWidth (vols : List (ℝ × List ℝ)) : ℝ := 1.01 * maxV vols / 20

/-- Counts, utils/grainSizeDistribution.py:74-80: a negative index counts from the end, an index outside the list fails. -/
noncomputable def counts (h : ℝ) (vol : List ℝ) : Option (List ℝ) :=
  vol.foldlM (fun dist vv =>
    let i := ⌊vv / h⌋
    let i := if i < 0 then i + 20 else i
    if 0 ≤ i ∧ i < 20 then some (dist.modify i.toNat (· + 1)) else none) (List.replicate 20 0)

/-- The pairs printed for one time, utils/grainSizeDistribution.py:74-83. -/
noncomputable def distribution (h : ℝ) (vol : List ℝ) : Option (List (ℝ × ℝ)) :=
  (counts h vol).map fun dist => (List.range 20).map fun (i : ℕ) => (((i : ℝ) + 0.5) * h, dist.getD i 0 / vol.length)

end AMPE.GrainScripts
