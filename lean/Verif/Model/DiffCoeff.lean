import Verif.Model.Functions
import Verif.Model.Flux
import Mathlib.Analysis.SpecialFunctions.Exp

/-!
# Solute diffusion coefficients on cell faces (source/fortran/2d/concentrationdiffusion.m4 and the 3d file)

Face `(i, j)` of direction 0 lies between cells `(i-1, j)` and `(i, j)`.  Every routine repeats the same
statements once per direction with different indices; the statements are written once as a function of the
pairs of cell values they read (`Pair`), and the definitions of the directions give the cells that the code
reads for each of the arguments.  `none` is the Fortran `stop` for an unknown type character.  The division by the
mean temperature is the one of Lean (no exception at `0`).
-/

namespace AMPE.DiffCoeff

open AMPE.Functions AMPE.Flux

/-- The two cell values given to one call of `average_func`, or added for the mean temperature. -/
abbrev Pair := ℝ × ℝ

/-- Cells read for an x face: `u(ic0-1,ic1)`, `u(ic0,ic1)`. -/
def X (u : Field2) (i j : ℤ) : Pair := (u (i - 1) j, u i j)
/-- Cells read for a y face: `u(ic0,ic1-1)`, `u(ic0,ic1)`. -/
def Y (u : Field2) (i j : ℤ) : Pair := (u i (j - 1), u i j)
/-- Same in 3D. -/
def X3 (u : Field3) (i j k : ℤ) : Pair := (u (i - 1) j k, u i j k)
def Y3 (u : Field3) (i j k : ℤ) : Pair := (u i (j - 1) k, u i j k)
def Z3 (u : Field3) (i j k : ℤ) : Pair := (u i j (k - 1), u i j k)

/-- Material data of one phase: `d_liquid`, `q0_liquid` etc. -/
structure Arrhenius where
  d0 : ℝ
  q0 : ℝ

/-- `d*exp(-q0_invR*invT)` with `q0_invR = q0/gas_constant_R`, `invT = 2/(T1+T2)`;
source/fortran/2d/concentrationdiffusion.m4:52-68. -/
noncomputable def rate (R : ℝ) (m : Arrhenius) (temp : Pair) : ℝ :=
  m.d0 * Real.exp (-(m.q0 / R) * (2 / (temp.1 + temp.2)))

/-- `average_func` on a pair. -/
noncomputable def avgP (at_ : Char) (p : Pair) : Option ℝ := averageFunc at_ p.1 p.2

/-- `vphi = 0; do ip: vphi = vphi + average_func(...)`; source/fortran/2d/concentrationdiffusion.m4:191-196. -/
noncomputable def sumAvg (at_ : Char) (ps : List Pair) : Option ℝ :=
  ps.foldlM (fun s p => do let a ← avgP at_ p; some (s + a)) 0

/-- `vphi = 0; do ip: vphi = average_func(...)`; source/fortran/3d/concentrationdiffusion.m4:574-579 (no accumulation). -/
noncomputable def lastAvg (at_ : Char) (ps : List Pair) : Option ℝ :=
  ps.foldlM (fun _ p => avgP at_ p) 0

/-- Statements of one face of `concentration_pfmdiffusion_of_temperature` (source/fortran/2d/concentrationdiffusion.m4:341-427, source/fortran/3d/concentrationdiffusion.m4:310-428): liquid and
solid parts.  `concentration_pfmdiffusion` (source/fortran/2d/concentrationdiffusion.m4:14-95, source/fortran/3d/concentrationdiffusion.m4:14-126) adds the two. -/
noncomputable def twoPhase (it at_ : Char) (R : ℝ) (l s : Arrhenius) (phi temp : Pair) : Option (ℝ × ℝ) := do
  let vphi ← avgP at_ phi
  let hphi ← interpFunc it vphi
  some ((1 - hphi) * rate R l temp, hphi * rate R s temp)

/-- `concentration_pfmdiffusion_scalar`, source/fortran/2d/concentrationdiffusion.m4:99-153: constant coefficients. -/
noncomputable def scalar (it at_ : Char) (dl ds : ℝ) (phi : Pair) : Option ℝ := do
  let vphi ← avgP at_ phi
  let hphi ← interpFunc it vphi
  some ((1 - hphi) * dl + hphi * ds)

/-- Statements of one face of `concentration_pfmdiffusion_of_temperature_multiphases` (source/fortran/2d/concentrationdiffusion.m4:430-519, source/fortran/3d/concentrationdiffusion.m4:920-1046)
for the cells read for the solid order parameters, the liquid one and the temperature. -/
noncomputable def multi (it at_ : Char) (R : ℝ) (l s : Arrhenius) (solids : List Pair) (liquid temp : Pair) :
    Option (ℝ × ℝ) := do
  let vs ← sumAvg at_ solids
  let phis ← interpFunc it vs
  let vl ← avgP at_ liquid
  let phil ← interpFunc it vl
  some (phil * rate R l temp, phis * rate R s temp)

/-- Statements of one face of `concentration_pfmdiffusion_of_temperature_threephases` (source/fortran/2d/concentrationdiffusion.m4:523-640,
source/fortran/3d/concentrationdiffusion.m4:430-602): liquid, A and B parts; `accB` is the accumulation used for the B order parameters. -/
noncomputable def three (accB : List Pair → Option ℝ) (it at_ : Char) (R : ℝ) (l a b : Arrhenius)
    (pa pb : List Pair) (liquid temp : Pair) : Option (ℝ × ℝ × ℝ) := do
  let va ← sumAvg at_ pa
  let ha ← interpFunc it va
  let vb ← accB pb
  let hb ← interpFunc it vb
  let vl ← avgP at_ liquid
  let hl ← interpFunc it vl
  some (hl * rate R l temp, ha * rate R a temp, hb * rate R b temp)

/-- Statements of one face of `concentrationdiffusion_beckermann` (source/fortran/2d/concentrationdiffusion.m4:736-804) for partition coefficient `k`. -/
noncomputable def beckermann (it at_ : Char) (dl ds k : ℝ) (phi : Pair) : Option ℝ := do
  let vphi ← avgP at_ phi
  let hphi ← interpFunc it vphi
  some (ds + (dl - ds) * (1 - hphi) / (1 - hphi + k * hphi))

/-! ## Directions -/

/-- source/fortran/2d/concentrationdiffusion.m4:385-404. -/
noncomputable def twoPhaseX (it at_ : Char) (R : ℝ) (l s : Arrhenius) (phi temp : Field2) (i j : ℤ) :=
  twoPhase it at_ R l s (X phi i j) (X temp i j)
/-- source/fortran/2d/concentrationdiffusion.m4:406-424. -/
noncomputable def twoPhaseY (it at_ : Char) (R : ℝ) (l s : Arrhenius) (phi temp : Field2) (i j : ℤ) :=
  twoPhase it at_ R l s (Y phi i j) (Y temp i j)
/-- source/fortran/3d/concentrationdiffusion.m4:356-378. -/
noncomputable def twoPhaseX3 (it at_ : Char) (R : ℝ) (l s : Arrhenius) (phi temp : Field3) (i j k : ℤ) :=
  twoPhase it at_ R l s (X3 phi i j k) (X3 temp i j k)
/-- source/fortran/3d/concentrationdiffusion.m4:380-401. -/
noncomputable def twoPhaseY3 (it at_ : Char) (R : ℝ) (l s : Arrhenius) (phi temp : Field3) (i j k : ℤ) :=
  twoPhase it at_ R l s (Y3 phi i j k) (Y3 temp i j k)
/-- source/fortran/3d/concentrationdiffusion.m4:403-424. -/
noncomputable def twoPhaseZ3 (it at_ : Char) (R : ℝ) (l s : Arrhenius) (phi temp : Field3) (i j k : ℤ) :=
  twoPhase it at_ R l s (Z3 phi i j k) (Z3 temp i j k)

/-- source/fortran/2d/concentrationdiffusion.m4:130-139. -/
noncomputable def scalarX (it at_ : Char) (dl ds : ℝ) (phi : Field2) (i j : ℤ) := scalar it at_ dl ds (X phi i j)
/-- source/fortran/2d/concentrationdiffusion.m4:141-150. -/
noncomputable def scalarY (it at_ : Char) (dl ds : ℝ) (phi : Field2) (i j : ℤ) := scalar it at_ dl ds (Y phi i j)

/-- source/fortran/2d/concentrationdiffusion.m4:471-493; the solid order parameters are all but the last. -/
noncomputable def multiX (it at_ : Char) (R : ℝ) (l s : Arrhenius) (sol : List Field2) (liq temp : Field2) (i j : ℤ) :=
  multi it at_ R l s (sol.map fun u => X u i j) (X liq i j) (X temp i j)
/-- source/fortran/2d/concentrationdiffusion.m4:495-516: the two values given to `average_func` for the liquid are both `phi(ic0,ic1-1,nphi)`
(505). -/
noncomputable def multiY (it at_ : Char) (R : ℝ) (l s : Arrhenius) (sol : List Field2) (liq temp : Field2) (i j : ℤ) :=
  multi it at_ R l s (sol.map fun u => Y u i j) (liq i (j - 1), liq i (j - 1)) (Y temp i j)
/-- source/fortran/3d/concentrationdiffusion.m4:963-989. -/
noncomputable def multiX3 (it at_ : Char) (R : ℝ) (l s : Arrhenius) (sol : List Field3) (liq temp : Field3)
    (i j k : ℤ) :=
  multi it at_ R l s (sol.map fun u => X3 u i j k) (X3 liq i j k) (X3 temp i j k)
/-- source/fortran/3d/concentrationdiffusion.m4:991-1016: again `phi(ic0,ic1-1,ic2,nphi)` twice (1003). -/
noncomputable def multiY3 (it at_ : Char) (R : ℝ) (l s : Arrhenius) (sol : List Field3) (liq temp : Field3)
    (i j k : ℤ) :=
  multi it at_ R l s (sol.map fun u => Y3 u i j k) (liq i (j - 1) k, liq i (j - 1) k) (Y3 temp i j k)
/-- source/fortran/3d/concentrationdiffusion.m4:1018-1043: `phi(ic0,ic1,ic2-1,nphi)` and `phi(ic0,ic1-1,ic2,nphi)` (1030). -/
noncomputable def multiZ3 (it at_ : Char) (R : ℝ) (l s : Arrhenius) (sol : List Field3) (liq temp : Field3)
    (i j k : ℤ) :=
  multi it at_ R l s (sol.map fun u => Z3 u i j k) (liq i j (k - 1), liq i (j - 1) k) (Z3 temp i j k)

/-- source/fortran/2d/concentrationdiffusion.m4:572-603. -/
noncomputable def threeX (it at_ : Char) (R : ℝ) (l a b : Arrhenius) (pa pb : List Field2) (liq temp : Field2)
    (i j : ℤ) :=
  three (sumAvg at_) it at_ R l a b (pa.map fun u => X u i j) (pb.map fun u => X u i j) (X liq i j) (X temp i j)
/-- source/fortran/2d/concentrationdiffusion.m4:605-637. -/
noncomputable def threeY (it at_ : Char) (R : ℝ) (l a b : Arrhenius) (pa pb : List Field2) (liq temp : Field2)
    (i j : ℤ) :=
  three (sumAvg at_) it at_ R l a b (pa.map fun u => Y u i j) (pb.map fun u => Y u i j) (Y liq i j) (Y temp i j)
/-- source/fortran/3d/concentrationdiffusion.m4:484-521. -/
noncomputable def threeX3 (it at_ : Char) (R : ℝ) (l a b : Arrhenius) (pa pb : List Field3) (liq temp : Field3)
    (i j k : ℤ) :=
  three (sumAvg at_) it at_ R l a b (pa.map fun u => X3 u i j k) (pb.map fun u => X3 u i j k) (X3 liq i j k)
    (X3 temp i j k)
/-- source/fortran/3d/concentrationdiffusion.m4:523-560. -/
noncomputable def threeY3 (it at_ : Char) (R : ℝ) (l a b : Arrhenius) (pa pb : List Field3) (liq temp : Field3)
    (i j k : ℤ) :=
  three (sumAvg at_) it at_ R l a b (pa.map fun u => Y3 u i j k) (pb.map fun u => Y3 u i j k) (Y3 liq i j k)
    (Y3 temp i j k)
/-- source/fortran/3d/concentrationdiffusion.m4:562-600: the B order parameters are not accumulated (576). -/
noncomputable def threeZ3 (it at_ : Char) (R : ℝ) (l a b : Arrhenius) (pa pb : List Field3) (liq temp : Field3)
    (i j k : ℤ) :=
  three (lastAvg at_) it at_ R l a b (pa.map fun u => Z3 u i j k) (pb.map fun u => Z3 u i j k) (Z3 liq i j k)
    (Z3 temp i j k)

/-- source/fortran/2d/concentrationdiffusion.m4:769-784: `k = partition_coeff(ic0,ic1)`. -/
noncomputable def beckermannX (it at_ : Char) (dl ds : ℝ) (k phi : Field2) (i j : ℤ) :=
  beckermann it at_ dl ds (k i j) (X phi i j)
/-- source/fortran/2d/concentrationdiffusion.m4:786-801. -/
noncomputable def beckermannY (it at_ : Char) (dl ds : ℝ) (k phi : Field2) (i j : ℤ) :=
  beckermann it at_ dl ds (k i j) (Y phi i j)

/-! ## Interface diffusion -/

/-- `threshold = 1.0d-2`; source/fortran/2d/concentrationdiffusion.m4:918, 1041. -/
noncomputable def thr : ℝ := 0.01

/-- `dAB`; source/fortran/2d/concentrationdiffusion.m4:918-921, 928-942 (`0.5*factor*pa*pa*pb*pb*factorT`) and 1041-1044, 1050-1063
(`factor*pa*pa*pb*pb`), for the two order parameters and `d` = `d0c` resp. `factorT`; `0` when one of the
tests `.gt. threshold` fails. -/
noncomputable def dAB (d pa pb : ℝ) : ℝ :=
  if pa > thr then
    if pb > thr then 0.5 * d * (1 / (0.5 - thr)) ^ 4 * ((pa - thr) * (pa - thr) * (pb - thr) * (pb - thr)) else 0
  else 0

/-- `do ipa = 1, nphia; do ipb = ipbmin, nphib` with `ipbmin = ipa+1` if `same_phase`; source/fortran/2d/concentrationdiffusion.m4:928-936. -/
def phasePairs (nA nB : ℕ) (samePhase : Bool) : List (ℕ × ℕ) :=
  (List.range nA).flatMap fun a =>
    ((List.range nB).filter fun b => !samePhase || decide (a < b)).map fun b => (a, b)

/-- Sum of the `dAB` of one cell (the additions to one face are regrouped by cell). -/
noncomputable def cellD (nA nB : ℕ) (samePhase : Bool) (d : Field2) (phia phib : ℕ → Field2) (c : ℤ × ℤ) : ℝ :=
  ((phasePairs nA nB samePhase).map fun ab => dAB (d c.1 c.2) (phia ab.1 c.1 c.2) (phib ab.2 c.1 c.2)).sum

/-- Adding `v(cell)` to the lower and upper x face of all cells of the loop. -/
noncomputable def scatX (cells : List (ℤ × ℤ)) (v : ℤ × ℤ → ℝ) (diff : ℤ × ℤ → ℝ) : ℤ × ℤ → ℝ :=
  cells.foldl (fun f c => addAt (addAt f (c.1, c.2) (v c)) (c.1 + 1, c.2) (v c)) diff
/-- Same for the y faces. -/
noncomputable def scatY (cells : List (ℤ × ℤ)) (v : ℤ × ℤ → ℝ) (diff : ℤ × ℤ → ℝ) : ℤ × ℤ → ℝ :=
  cells.foldl (fun f c => addAt (addAt f (c.1, c.2) (v c)) (c.1, c.2 + 1) (v c)) diff

/-- A patch. -/
structure Patch where
  lo0 : ℤ
  hi0 : ℤ
  lo1 : ℤ
  hi1 : ℤ

/-- `add_ab_diffusion`, source/fortran/2d/concentrationdiffusion.m4:1014-1078, x faces: the loop covers the patch and one ghost cell. -/
noncomputable def addAbX (p : Patch) (nA nB : ℕ) (same : Bool) (d0c : ℝ) (phia phib : ℕ → Field2)
    (diff : ℤ × ℤ → ℝ) : ℤ × ℤ → ℝ :=
  scatX (loop2 (p.lo0 - 1) (p.hi0 + 1) (p.lo1 - 1) (p.hi1 + 1)) (cellD nA nB same (fun _ _ => d0c) phia phib) diff
/-- y faces. -/
noncomputable def addAbY (p : Patch) (nA nB : ℕ) (same : Bool) (d0c : ℝ) (phia phib : ℕ → Field2)
    (diff : ℤ × ℤ → ℝ) : ℤ × ℤ → ℝ :=
  scatY (loop2 (p.lo0 - 1) (p.hi0 + 1) (p.lo1 - 1) (p.hi1 + 1)) (cellD nA nB same (fun _ _ => d0c) phia phib) diff

/-- `factorT = d0c*exp(-q0_invR/temp)`; source/fortran/2d/concentrationdiffusion.m4:925-926. -/
noncomputable def factorT (R d0c q0 : ℝ) (temp : Field2) : Field2 := fun i j =>
  d0c * Real.exp (-(q0 / R) * (1 / temp i j))

/-- `ab_diffusion_of_temperature`, source/fortran/2d/concentrationdiffusion.m4:883-967, x faces of `diffA` (and of `diffB` when the phases differ):
the loop covers the patch only. -/
noncomputable def abTX (p : Patch) (nA nB : ℕ) (same : Bool) (R d0c q0 : ℝ) (temp : Field2) (phia phib : ℕ → Field2)
    (diff : ℤ × ℤ → ℝ) : ℤ × ℤ → ℝ :=
  scatX (loop2 p.lo0 p.hi0 p.lo1 p.hi1) (cellD nA nB same (factorT R d0c q0 temp) phia phib) diff
/-- y faces. -/
noncomputable def abTY (p : Patch) (nA nB : ℕ) (same : Bool) (R d0c q0 : ℝ) (temp : Field2) (phia phib : ℕ → Field2)
    (diff : ℤ × ℤ → ℝ) : ℤ × ℤ → ℝ :=
  scatY (loop2 p.lo0 p.hi0 p.lo1 p.hi1) (cellD nA nB same (factorT R d0c q0 temp) phia phib) diff

/-- `dAB` of `add_ab_diffusion_single`, source/fortran/2d/concentrationdiffusion.m4:993-1000. -/
noncomputable def dSingle (d0c pa : ℝ) : ℝ := 0.5 * d0c * 2 ^ 4 * pa * pa * (1 - pa) * (1 - pa)

/-- `add_ab_diffusion_single`, source/fortran/2d/concentrationdiffusion.m4:970-1010, x faces. -/
noncomputable def addSingleX (p : Patch) (d0c : ℝ) (phi : Field2) (diff : ℤ × ℤ → ℝ) : ℤ × ℤ → ℝ :=
  scatX (loop2 (p.lo0 - 1) (p.hi0 + 1) (p.lo1 - 1) (p.hi1 + 1)) (fun c => dSingle d0c (phi c.1 c.2)) diff

/-! ## Entries written and read -/

/-- x faces written by `concentration_pfmdiffusion_of_temperature` (source/fortran/2d/concentrationdiffusion.m4:385-386). -/
def WrittenTwoX (p : Patch) (ng : ℕ) (f : ℤ × ℤ) : Prop :=
  p.lo0 ≤ f.1 ∧ f.1 ≤ p.hi0 + 1 ∧ p.lo1 - ng ≤ f.2 ∧ f.2 ≤ p.hi1 + ng
/-- x faces written by the multi-phase and three-phase routines (source/fortran/2d/concentrationdiffusion.m4:471-472, 572-573). -/
def WrittenMultiX (p : Patch) (_ng : ℕ) (f : ℤ × ℤ) : Prop :=
  p.lo0 ≤ f.1 ∧ f.1 ≤ p.hi0 + 1 ∧ p.lo1 ≤ f.2 ∧ f.2 ≤ p.hi1
/-- x faces whose coefficient is read by `add_flux_iso` (source/fortran/2d/flux.m4:69-131) for the x faces of the
patch. -/
def ReadIsoX (p : Patch) (f : ℤ × ℤ) : Prop :=
  ∃ i j, p.lo0 ≤ i ∧ i ≤ p.hi0 + 1 ∧ p.lo1 ≤ j ∧ j ≤ p.hi1 ∧ (f = (i, j - 1) ∨ f = (i, j) ∨ f = (i, j + 1))
/-- x faces whose coefficient is read by `add_flux` (source/fortran/2d/flux.m4:11-62). -/
def ReadPlainX (p : Patch) (f : ℤ × ℤ) : Prop :=
  p.lo0 ≤ f.1 ∧ f.1 ≤ p.hi0 + 1 ∧ p.lo1 ≤ f.2 ∧ f.2 ≤ p.hi1
/-- Ghost width of the coefficients, source/QuatModel.cc:1269. -/
def coeffGhosts (isotropic : Bool) : ℕ := if isotropic then 1 else 0
/-- x faces for which a side array of ghost width `ng` has storage (SAMRAI `SIDE2d0`). -/
def StoredX (p : Patch) (ng : ℕ) (f : ℤ × ℤ) : Prop :=
  p.lo0 - ng ≤ f.1 ∧ f.1 ≤ p.hi0 + 1 + ng ∧ p.lo1 - ng ≤ f.2 ∧ f.2 ≤ p.hi1 + ng
/-- x faces written by `add_ab_diffusion`/`add_ab_diffusion_single`. -/
def WrittenAbX (p : Patch) (f : ℤ × ℤ) : Prop :=
  ∃ c ∈ loop2 (p.lo0 - 1) (p.hi0 + 1) (p.lo1 - 1) (p.hi1 + 1), f = (c.1, c.2) ∨ f = (c.1 + 1, c.2)
/-- Ghost width of the scalar coefficient, source/QuatModel.cc:1393-1395: `d_nghosts - 1`. -/
def scalarGhosts (nghosts : ℕ) : ℕ := nghosts - 1

end AMPE.DiffCoeff
