import Mathlib.Algebra.Order.Archimedean.Real.Basic
import Mathlib.Algebra.BigOperators.Group.Finset.Basic
import Mathlib.Algebra.BigOperators.Fin

/-!
# Chemical driving force on a patch and what is recorded of it for visualisation

Patch loops of the free energy strategies, all written with one explicit position per array:

* source/QuadraticFreeEnergyStrategy.cc:170-247 (energies), 332-515 (driving force),
* source/CALPHADFreeEnergyStrategyBinary.cc:255-320, 436-665,
* source/KKSdiluteBinary.cc:270-337, 444-625,
* source/CALPHADFreeEnergyStrategyTernary.cc:185-290, 375-566,
* source/CALPHADFreeEnergyStrategyBinaryThreePhase.cc:240-325, 418-660,
* source/CALPHADFreeEnergyStrategyMultiOrder.cc:45-245,
* source/QuadraticFreeEnergyStrategyMultiOrder.cc:65-225, 307-545,
* source/QuadraticFreeEnergyStrategyMultiOrderTernaryThreePhase.cc:84-234, 237-517,

called by source/PhaseRHSStrategyWithQ.cc:150-312, source/MultiOrderRHSStrategy.cc:150-262 and source/ThreePhasesRHSStrategy.cc:160-262.
Arrays are flat memory; plane `p` of an array begins at `p` times the number of cells of its box (`getPointer(p)`, and `coffset` of
source/CALPHADFreeEnergyStrategyTernary.cc:253, 514).  Two dimensions: third limits 0 and no ghost cells in the third direction.
Energies, chemical potentials and molar volumes of the library: parameters.
-/

namespace AMPE.DrivingForce

/-- Index box. -/
structure Box where
  lo0 : ℤ
  hi0 : ℤ
  lo1 : ℤ
  hi1 : ℤ
  lo2 : ℤ
  hi2 : ℤ

abbrev Cell := ℤ × ℤ × ℤ

/-- Box with ghost cells, `three` for `NDIM == 3`. -/
def Box.grow (b : Box) (three : Bool) (w : ℤ) : Box :=
  ⟨b.lo0 - w, b.hi0 + w, b.lo1 - w, b.hi1 + w, if three then b.lo2 - w else b.lo2, if three then b.hi2 + w else b.hi2⟩

/-- `numberCells`. -/
def Box.n0 (b : Box) : ℤ := b.hi0 - b.lo0 + 1
def Box.n1 (b : Box) : ℤ := b.hi1 - b.lo1 + 1
def Box.n2 (b : Box) : ℤ := b.hi2 - b.lo2 + 1

/-- `size()`. -/
def Box.size (b : Box) : ℤ := b.n0 * b.n1 * b.n2

/-- Position of a cell: e.g. source/QuadraticFreeEnergyStrategy.cc:486-498 with `jp` the number of cells of a row and `kp` of a plane
(355-412). -/
def Box.idx (b : Box) (c : Cell) : ℤ := (c.1 - b.lo0) + (c.2.1 - b.lo1) * b.n0 + (c.2.2 - b.lo2) * (b.n0 * b.n1)

/-- Position of a cell in plane `p`. -/
def Box.plane (b : Box) (p : ℕ) (c : Cell) : ℤ := (p : ℤ) * b.size + b.idx c

/-- Cells in the order of the loops (`kk`, `jj`, `ii`). -/
def Box.list (b : Box) : List Cell :=
  (List.range b.n2.toNat).flatMap fun (k : ℕ) => (List.range b.n1.toNat).flatMap fun (j : ℕ) =>
    (List.range b.n0.toNat).map fun (i : ℕ) => (b.lo0 + (i : ℤ), b.lo1 + (j : ℤ), b.lo2 + (k : ℤ))

/-- Ghost widths of temperature, order parameters, phase compositions, energies and rate. -/
structure Widths where
  te : ℤ
  pf : ℤ
  ci : ℤ
  f : ℤ
  rhs : ℤ

/-- Arrays of a patch. -/
structure Mem where
  te : ℤ → ℝ
  pf : ℤ → ℝ
  cl : ℤ → ℝ
  ca : ℤ → ℝ
  cb : ℤ → ℝ
  fl : ℤ → ℝ
  fa : ℤ → ℝ
  fb : ℤ → ℝ
  rhs : ℤ → ℝ

/-- What the body of the loop of a driving force reads in one cell: `n` order parameters, `m` species. -/
structure Local (n m : ℕ) where
  te : ℝ
  pf : Fin n → ℝ
  cl : Fin m → ℝ
  ca : Fin m → ℝ
  cb : Fin m → ℝ
  fl : ℝ
  fa : ℝ
  fb : ℝ

/-- `computeFreeEnergy` of a strategy: library energy `e`, then multiplied by `inv` (inverse molar volume or unit factor).
source/CALPHADFreeEnergyStrategyBinary.cc:296-319, source/QuadraticFreeEnergyStrategy.cc:222-246 and the like. -/
noncomputable def energyLoop {m : ℕ} (e inv : ℝ → (Fin m → ℝ) → ℝ) (three : Bool) (b : Box) (w : Widths) (te ci f : ℤ → ℝ) : ℤ → ℝ :=
  b.list.foldl (fun f c =>
    let t := te ((b.grow three w.te).plane 0 c)
    let x : Fin m → ℝ := fun s => ci ((b.grow three w.ci).plane s c)
    let q := (b.grow three w.f).plane 0 c
    let f1 := Function.update f q (e t x)
    Function.update f1 q (f1 q * inv t x)) f

/-- Values read in a cell: source/CALPHADFreeEnergyStrategyBinary.cc:638-645 and the like.  Phase compositions are all read with the box
of the liquid's, energies with the box of the liquid's. -/
noncomputable def readCell {n m : ℕ} (three : Bool) (b : Box) (w : Widths) (s : Mem) (c : Cell) : Local n m where
  te := s.te ((b.grow three w.te).plane 0 c)
  pf := fun p => s.pf ((b.grow three w.pf).plane p c)
  cl := fun i => s.cl ((b.grow three w.ci).plane i c)
  ca := fun i => s.ca ((b.grow three w.ci).plane i c)
  cb := fun i => s.cb ((b.grow three w.ci).plane i c)
  fl := s.fl ((b.grow three w.f).plane 0 c)
  fa := s.fa ((b.grow three w.f).plane 0 c)
  fb := s.fb ((b.grow three w.f).plane 0 c)

/-- `addDrivingForceOnPatch`: `rhs` of every order parameter of every cell of the patch is incremented.
source/CALPHADFreeEnergyStrategyBinary.cc:619-664, source/CALPHADFreeEnergyStrategyMultiOrder.cc:146-244 and the like. -/
noncomputable def addLoop {n m : ℕ} (force : Local n m → Fin n → ℝ) (three : Bool) (b : Box) (w : Widths) (s : Mem) : Mem :=
  { s with rhs := b.list.foldl (fun r c => (List.finRange n).foldl (fun r (p : Fin n) =>
      Function.update r ((b.grow three w.rhs).plane p c)
        (r ((b.grow three w.rhs).plane p c) + force (readCell three b w s c) p)) r) s.rhs }

/-- Free energies of the library and factors, per phase. -/
structure Thermo (m : ℕ) where
  eL : ℝ → (Fin m → ℝ) → ℝ
  eA : ℝ → (Fin m → ℝ) → ℝ
  eB : ℝ → (Fin m → ℝ) → ℝ
  vL : ℝ → (Fin m → ℝ) → ℝ
  vA : ℝ → (Fin m → ℝ) → ℝ
  vB : ℝ → (Fin m → ℝ) → ℝ

/-- Energies first, then the force: source/PhaseRHSStrategyWithQ.cc:157-165, 276-282 (two phases, `withB = false`),
source/MultiOrderRHSStrategy.cc:217-234, source/ThreePhasesRHSStrategy.cc:219-236 (`withB = true`). -/
noncomputable def evaluate {n m : ℕ} (th : Thermo m) (force : Local n m → Fin n → ℝ) (withB three : Bool) (b : Box) (w : Widths) (s : Mem) : Mem :=
  let s1 := { s with fl := energyLoop th.eL th.vL three b w s.te s.cl s.fl }
  let s2 := { s1 with fa := energyLoop th.eA th.vA three b w s1.te s1.ca s1.fa }
  let s3 := if withB then { s2 with fb := energyLoop th.eB th.vB three b w s2.te s2.cb s2.fb } else s2
  addLoop force three b w s3

/-! ## Expressions of the strategies -/

/-- One order parameter, one species: source/QuadraticFreeEnergyStrategy.cc:500-511 (`mu` of the liquid) and
source/CALPHADFreeEnergyStrategyBinary.cc:638-661, source/KKSdiluteBinary.cc:600-622 (`mu` of the solid), `eta` not used. -/
noncomputable def forceBinary (muOf : Local 1 1 → ℝ) (hp : ℝ → ℝ) (l : Local 1 1) (_p : Fin 1) : ℝ :=
  hp (l.pf 0) * ((l.fl - l.fa) - muOf l * (l.cl 0 - l.ca 0))

/-- Two species: source/CALPHADFreeEnergyStrategyTernary.cc:546-566. -/
noncomputable def forceTernary (mu : ℝ → (Fin 2 → ℝ) → Fin 2 → ℝ) (hp : ℝ → ℝ) (l : Local 1 2) (_p : Fin 1) : ℝ :=
  hp (l.pf 0) * (l.fl - l.fa - mu l.te l.ca 0 * (l.cl 0 - l.ca 0) - mu l.te l.ca 1 * (l.cl 1 - l.ca 1))

/-- Several order parameters, the first `nA` of phase A, the last of the liquid:
source/CALPHADFreeEnergyStrategyMultiOrder.cc:167-241 (`phaseB`: array of the third phase present). -/
noncomputable def forceMulti (n nA : ℕ) (phaseB : Bool) (mu : ℝ → ℝ → ℝ) (l : Local (n + 1) 1) (p : Fin (n + 1)) : ℝ :=
  let m := mu l.te (l.cl 0)
  let dfa := l.fa - m * l.ca 0
  let dfl := l.fl - m * l.cl 0
  let dfb := if phaseB then l.fb - m * l.cb 0 else 0
  let sA := ∑ i : Fin n, if (i : ℕ) < nA then l.pf i.castSucc * l.pf i.castSucc else 0
  let sB := ∑ i : Fin n, if (i : ℕ) < nA then 0 else l.pf i.castSucc * l.pf i.castSucc
  let sL := l.pf (Fin.last n) * l.pf (Fin.last n)
  let inv := 1 / (sL + sA + sB)
  let hL := sL * inv
  let hA := sA * inv
  let hB := sB * inv
  let r :=
    if p = Fin.last n then 2 * l.pf (Fin.last n) * ((1 - hL) * dfl - hA * dfa - hB * dfb) * inv
    else if (p : ℕ) < nA then 2 * l.pf p * ((1 - hA) * dfa - hL * dfl - hB * dfb) * inv
    else 2 * l.pf p * ((1 - hB) * dfb - hL * dfl - hA * dfa) * inv
  0 - r

/-! ## Recorded fields -/

/-- `ops.setToScalar(rhs, 0., patch.getBox())`, source/FreeEnergyStrategy.h:76-78: all planes, patch only. -/
noncomputable def zeroPatch (n : ℕ) (three : Bool) (b : Box) (wr : ℤ) (r : ℤ → ℝ) : ℤ → ℝ :=
  b.list.foldl (fun r c => (List.finRange n).foldl (fun r (p : Fin n) => Function.update r ((b.grow three wr).plane p c) 0) r) r

/-- `computeDrivingForce` of the base class, source/FreeEnergyStrategy.h:68-82, called for every patch by
source/FreeEnergyStrategy.cc:49-66 from source/QuatIntegrator.cc:2528-2537; `s.rhs` is the array plotted. -/
noncomputable def computeDrivingForce {n m : ℕ} (force : Local n m → Fin n → ℝ) (three : Bool) (b : Box) (w : Widths) (s : Mem) : Mem :=
  addLoop force three b w { s with rhs := zeroPatch n three b w.rhs s.rhs }

/-- Strategies with one order parameter and one species. -/
inductive Binary | quadratic | calphad | dilute
  deriving DecidableEq

/-- Object with its mutable interpolation `d_energy_interp_func_type`. -/
structure Obj where
  kind : Binary
  hp : ℝ → ℝ

/-- Chemical potential: `computeMu(t, c_l)` source/QuadraticFreeEnergyStrategy.cc:507, `computeMuA(t, c_a)`
source/CALPHADFreeEnergyStrategyBinary.cc:647 and source/KKSdiluteBinary.cc:608. -/
noncomputable def Obj.mu (o : Obj) (muL muA : ℝ → ℝ → ℝ) (l : Local 1 1) : ℝ :=
  match o.kind with
  | .quadratic => muL l.te (l.cl 0)
  | _ => muA l.te (l.ca 0)

noncomputable def Obj.force (o : Obj) (muL muA : ℝ → ℝ → ℝ) : Local 1 1 → Fin 1 → ℝ := forceBinary (o.mu muL muA) o.hp

/-- `computeDrivingForce` of a strategy: source/CALPHADFreeEnergyStrategyBinary.cc:413-432 and source/KKSdiluteBinary.cc:422-440 set the
interpolation to `LINEAR` (derivative one, source/fortran/functions.f:134-141) for the call and put it back; the quadratic strategy
inherits the base version. -/
noncomputable def Obj.record (o : Obj) (muL muA : ℝ → ℝ → ℝ) (three : Bool) (b : Box) (w : Widths) (s : Mem) : Obj × Mem :=
  match o.kind with
  | .quadratic => (o, computeDrivingForce (o.force muL muA) three b w s)
  | k =>
    let saved := o.hp
    let o1 : Obj := ⟨k, fun _ => 1⟩
    let s1 := computeDrivingForce (o1.force muL muA) three b w s
    (⟨k, saved⟩, s1)

/-- Rate of the order parameter in a cell after the driving force has been added, and the value recorded under `phase_rhs`:
source/PhaseRHSStrategyWithQ.cc:292-311 (record, mobility, noise) and source/QuatIntegrator.cc:2512-2526 (motion of grains, frame). -/
noncomputable def finishRate (visit : Bool) (old r mob alpha noise motion frame : ℝ) : ℝ × ℝ :=
  let recorded := if visit then r else old
  (mob * r + alpha * noise + motion + frame, recorded)

/-! ## Second derivatives -/

/-- `computeSecondDerivativeEnergyPhase…` with `use_internal_units`: the first `k` entries are multiplied by the factor.
`k = 4`: source/CALPHADFreeEnergyStrategyTernary.cc:632-668; `k = 3`:
source/QuadraticFreeEnergyStrategyMultiOrderTernaryThreePhase.cc:560-599; `k = 1` for one species. -/
noncomputable def secondDerivatives (k : ℕ) (factor : ℝ) (lib : ℕ → ℝ) (i : ℕ) : ℝ := if i < k then lib i * factor else lib i

end AMPE.DrivingForce
