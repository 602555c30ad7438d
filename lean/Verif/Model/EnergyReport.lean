import Verif.Model.Functions
import Verif.Model.Flux
import Mathlib.Analysis.SpecialFunctions.Sqrt

/-!
# Energy diagnostics (source/fortran/{2d,3d}/quatenergy.m4: `quatenergy`, `bulkenergy`, `phiphi_interfacialenergy`;
source/EnergyEvaluationStrategy.cc; source/TwoPhasesEnergyEvaluationStrategy.cc)

One order parameter, as called by `TwoPhasesEnergyEvaluationStrategy` (`nphases = 1`).  Cells have an index type `ι`
(pairs in 2D, triples in 3D).  The energy densities of the cells are data of a patch: their formulas are modelled in
`PhaseRHS` (interface, well, bulk), `Anisotropy` (anisotropic interface) and below (orientation).
-/

namespace AMPE.EnergyReport

open AMPE.Flux AMPE.Functions

/-- The arguments `total_energy`, `total_phi_e`, `total_orient_e`, `total_qint_e`, `total_well_e`, `total_free_e`. -/
@[ext] structure Totals where
  energy : ℝ
  phase : ℝ
  orient : ℝ
  qint : ℝ
  well : ℝ
  free : ℝ

/-- One patch: its cells, the integration weight and the energy densities of the five parts. -/
structure EPatch (ι : Type) where
  cells : List ι
  weight : ι → ℝ
  iface : ι → ℝ
  orient : ι → ℝ
  qint : ι → ℝ
  well : ι → ℝ
  bulk : ι → ℝ

/-- `a(c) = a(c) + v`. -/
def addC {ι : Type} [DecidableEq ι] (a : ι → ℝ) (c : ι) (v : ℝ) : ι → ℝ := fun d => if d = c then a d + v else a d

/-- One loop `e = ...; energy(i,j) = energy(i,j) + e; e = e*weight(i,j); total = total + e; part = part + e`:
source/fortran/2d/quatenergy.m4:278-345, 350-372, 379-396, 436-456.  State: total, part, per-cell array. -/
noncomputable def addLoop {ι : Type} [DecidableEq ι] (perCell : Bool) (w e : ι → ℝ) (cells : List ι)
    (s : ℝ × ℝ × (ι → ℝ)) : ℝ × ℝ × (ι → ℝ) :=
  cells.foldl (fun s c => (s.1 + e c * w c, s.2.1 + e c * w c, if perCell then addC s.2.2 c (e c) else s.2.2)) s

/-- `phi_interface_energy` and `interface_anisotropic_energy`: `phi_e = 0`, the array is cleared, then the loop
(source/fortran/2d/quatenergy.m4:50-97, 140-177). -/
noncomputable def ifaceEnergy {ι : Type} [DecidableEq ι] (perCell : Bool) (P : EPatch ι) (dens : ι → ℝ) :
    ℝ × (ι → ℝ) :=
  let dens := if perCell then fun _ => 0 else dens
  let s := addLoop perCell P.weight P.iface P.cells (0, 0, dens)
  (s.2.1, s.2.2)

/-- `quatenergy`, source/fortran/2d/quatenergy.m4:255-400: `total_well_e` is reset (378), the other totals are accumulated;
`mis` is `misorientation_factor > 0`. -/
noncomputable def quatenergy2 {ι : Type} [DecidableEq ι] (mis perCell : Bool) (P : EPatch ι)
    (s : Totals × (ι → ℝ)) : Totals × (ι → ℝ) :=
  let f := ifaceEnergy perCell P s.2
  let t := { s.1 with phase := s.1.phase + f.1, energy := s.1.energy + f.1 }
  let (t, dens) :=
    if mis then
      let o := addLoop perCell P.weight P.orient P.cells (t.energy, t.orient, f.2)
      let q := addLoop perCell P.weight P.qint P.cells (o.1, t.qint, o.2.2)
      ({ t with energy := q.1, orient := o.2.1, qint := q.2.1 }, q.2.2)
    else (t, f.2)
  let w := addLoop perCell P.weight P.well P.cells (t.energy, 0, dens)
  ({ t with energy := w.1, well := w.2.1 }, w.2.2)

/-- `quatenergy`, source/fortran/3d/quatenergy.m4:310-488: as in 2D but `total_orient_e` and `total_qint_e` are reset too (334, 429). -/
noncomputable def quatenergy3 {ι : Type} [DecidableEq ι] (mis perCell : Bool) (P : EPatch ι)
    (s : Totals × (ι → ℝ)) : Totals × (ι → ℝ) :=
  let f := ifaceEnergy perCell P s.2
  let t := { s.1 with phase := s.1.phase + f.1, energy := s.1.energy + f.1 }
  let (t, dens) :=
    if mis then
      let o := addLoop perCell P.weight P.orient P.cells (t.energy, 0, f.2)
      let q := addLoop perCell P.weight P.qint P.cells (o.1, 0, o.2.2)
      ({ t with energy := q.1, orient := o.2.1, qint := q.2.1 }, q.2.2)
    else (t, f.2)
  let w := addLoop perCell P.weight P.well P.cells (t.energy, 0, dens)
  ({ t with energy := w.1, well := w.2.1 }, w.2.2)

/-- `bulkenergy`, source/fortran/2d/quatenergy.m4:405-460, source/fortran/3d/quatenergy.m4:493-552: `total_free_e` is reset (434; 523). -/
noncomputable def bulkenergy {ι : Type} [DecidableEq ι] (perCell : Bool) (P : EPatch ι)
    (s : Totals × (ι → ℝ)) : Totals × (ι → ℝ) :=
  let b := addLoop perCell P.weight P.bulk P.cells (s.1.energy, 0, s.2)
  ({ s.1 with energy := b.1, free := b.2.1 }, b.2.2)

/-- `TwoPhasesEnergyEvaluationStrategy::evaluateEnergy` of one patch (source/TwoPhasesEnergyEvaluationStrategy.cc:41-177);
`three` is `NDIM == 3`, `dens` the patch's `energy_diag` data. -/
noncomputable def evaluatePatch {ι : Type} [DecidableEq ι] (three mis perCell : Bool) (P : EPatch ι) (t : Totals)
    (dens : ι → ℝ) : Totals × (ι → ℝ) :=
  bulkenergy perCell P (if three then quatenergy3 mis perCell P (t, dens) else quatenergy2 mis perCell P (t, dens))

/-- `EnergyEvaluationStrategy::evaluateEnergy` on one process, source/EnergyEvaluationStrategy.cc:14-42: totals set to zero,
then every local patch of every level. -/
noncomputable def evaluateRank {ι : Type} [DecidableEq ι] (three mis perCell : Bool) (ps : List (EPatch ι)) : Totals :=
  ps.foldl (fun t P => (evaluatePatch three mis perCell P t (fun _ => 0)).1) ⟨0, 0, 0, 0, 0, 0⟩

/-- Componentwise sum. -/
def Totals.add (a b : Totals) : Totals :=
  ⟨a.energy + b.energy, a.phase + b.phase, a.orient + b.orient, a.qint + b.qint, a.well + b.well, a.free + b.free⟩

/-- The `sumReduction` calls over the processes, source/EnergyEvaluationStrategy.cc:44-49. -/
noncomputable def evaluate {ι : Type} [DecidableEq ι] (three mis perCell : Bool) (ranks : List (List (EPatch ι))) : Totals :=
  (ranks.map (evaluateRank three mis perCell)).foldr Totals.add ⟨0, 0, 0, 0, 0, 0⟩

/-! ## Orientation energy of one cell -/

/-- `interp_func(average_func(a,b))`, e.g. source/fortran/2d/quatenergy.m4:286-288. -/
noncomputable def faceW (it at_ : Char) (a b : ℝ) : Option ℝ := do
  let v ← averageFunc at_ a b
  interpFunc it v

/-- `floor2`, source/fortran/2d/quatenergy.m4:252-256. -/
noncomputable def floor2 (ty : Char) (floor : ℝ) : ℝ := if ty = 's' then floor * floor else 0

/-- source/fortran/2d/quatenergy.m4:284-336.  `g` are the squared gradients `o2` on the faces x, x+1, y, y+1, `w` the face weights. -/
noncomputable def orientCell2 (fl T H : ℝ) (gx gx1 gy gy1 wx wx1 wy wy1 : ℝ) : ℝ :=
  let e := Real.sqrt (gx + fl) * wx
  let e := e + Real.sqrt (gx1 + fl) * wx1
  let e := e + Real.sqrt (gy + fl) * wy
  let e := e + Real.sqrt (gy1 + fl) * wy1
  e * T * (0.25 * H)

/-- source/fortran/3d/quatenergy.m4:338-415.  On the upper y face `sqrt(o2)` is taken before the floor is added (386-387). -/
noncomputable def orientCell3 (fl T H : ℝ) (gx gx1 gy gy1 gz gz1 wx wx1 wy wy1 wz wz1 : ℝ) : ℝ :=
  let e := Real.sqrt (gx + fl) * wx
  let e := e + Real.sqrt (gx1 + fl) * wx1
  let e := e + Real.sqrt (gy + fl) * wy
  let e := e + Real.sqrt gy1 * wy1
  let e := e + Real.sqrt (gz + fl) * wz
  let e := e + Real.sqrt (gz1 + fl) * wz1
  e * T * H / 6

/-! ## Per-cell output with rigid-body motion -/

/-- The array `edensity` after `phiphi_interfacialenergy`, source/fortran/2d/quatenergy.m4:522-552, called on the same data after the
other energies when rigid-body motion is on (source/QuatModel.cc:709-711, 4962): cleared, then overwritten for every pair. -/
noncomputable def phiphiDensity {ι : Type} (n : ℕ) (gamma m : ℝ) (phi : ℕ → ι → ℝ) (c : ι) : ℝ :=
  ((List.range n).flatMap fun p1 => (List.range n).map fun p2 => (p1, p2)).foldl
    (fun _ p => phi p.1 c * phi p.1 c * phi p.2 c * phi p.2 c * (0.5 * gamma * m)) 0

end AMPE.EnergyReport
