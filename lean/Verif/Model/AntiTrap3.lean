import Verif.Model.Flux
import Mathlib.Algebra.BigOperators.Group.Finset.Basic
import Mathlib.Order.Interval.Finset.Nat

/-!
# Anti-trapping currents in three dimensions

source/fortran/3d/concentrationrhs.m4:556-1146.  `double precision` is `ℝ`, arrays are total functions of the
cell indices, the loops over the faces of a patch are pointwise (each face is written once, from cell data only).
The single-precision literal `1.e-8` is exact (`AMPE.Flux.tol2`).
-/

namespace AMPE.AntiTrap3

open AMPE.Flux

/-- A gradient `(dphix, dphiy, dphiz)`. -/
abbrev Grad := ℝ × ℝ × ℝ

/-- Squared length as written in the routines, `dphix*dphix+dphiy*dphiy+dphiz*dphiz`. -/
noncomputable def len2 (g : Grad) : ℝ := g.1 * g.1 + g.2.1 * g.2.1 + g.2.2 * g.2.2

/-- Gradient on an x face, centred differences; source/fortran/3d/concentrationrhs.m4:598-607 and 748-757. -/
noncomputable def gradX (dx dy dz : ℝ) (p : Field3) (i j k : ℤ) : Grad :=
  (1 / dx * (p i j k - p (i - 1) j k),
   1 / dy * 0.25 * (p i (j + 1) k - p i (j - 1) k + p (i - 1) (j + 1) k - p (i - 1) (j - 1) k),
   1 / dz * 0.25 * (p i j (k + 1) - p i j (k - 1) + p (i - 1) j (k + 1) - p (i - 1) j (k - 1)))

/-- Gradient on a y face, centred differences; source/fortran/3d/concentrationrhs.m4:631-640 and 807-816. -/
noncomputable def gradY (dx dy dz : ℝ) (p : Field3) (i j k : ℤ) : Grad :=
  (1 / dx * 0.25 * (p (i + 1) (j - 1) k - p (i - 1) (j - 1) k + p (i + 1) j k - p (i - 1) j k),
   1 / dy * (p i j k - p i (j - 1) k),
   1 / dz * 0.25 * (p i (j - 1) (k + 1) - p i (j - 1) (k - 1) + p i j (k + 1) - p i j (k - 1)))

/-- Gradient on a z face, centred differences; source/fortran/3d/concentrationrhs.m4:662-671 and 866-875. -/
noncomputable def gradZ (dx dy dz : ℝ) (p : Field3) (i j k : ℤ) : Grad :=
  (1 / dx * 0.25 * (p (i + 1) j (k - 1) - p (i - 1) j (k - 1) + p (i + 1) j k - p (i - 1) j k),
   1 / dy * 0.25 * (p i (j + 1) (k - 1) - p i (j - 1) (k - 1) + p i (j + 1) k - p i (j - 1) k),
   1 / dz * (p i j k - p i j (k - 1)))

/-- Mean of the two cells next to an x face. -/
noncomputable def avgX (u : Field3) (i j k : ℤ) : ℝ := 0.5 * (u (i - 1) j k + u i j k)

/-- Mean of the two cells next to a y face. -/
noncomputable def avgY (u : Field3) (i j k : ℤ) : ℝ := 0.5 * (u i (j - 1) k + u i j k)

/-- Mean of the two cells next to a z face. -/
noncomputable def avgZ (u : Field3) (i j k : ℤ) : ℝ := 0.5 * (u i j (k - 1) + u i j k)

/-! ## Two phases -/

/-- Increment of one flux entry, `n` the component of `g` normal to the face:
source/fortran/3d/concentrationrhs.m4:609-623. -/
noncomputable def two (alpha : ℝ) (g : Grad) (n cl ca dpdt : ℝ) : ℝ :=
  if |len2 g| > tol2 then alpha * (n / Real.sqrt (len2 g)) * (cl - ca) * dpdt else 0

/-- `addconcentrationfluxfromantitrapping`, source/fortran/3d/concentrationrhs.m4:556-692, one species, x faces. -/
noncomputable def addTwoX (dx dy dz alpha : ℝ) (p cl ca r f : Field3) : Field3 := fun i j k =>
  let g := gradX dx dy dz p i j k
  f i j k + two alpha g g.1 (avgX cl i j k) (avgX ca i j k) (avgX r i j k)

/-- y faces. -/
noncomputable def addTwoY (dx dy dz alpha : ℝ) (p cl ca r f : Field3) : Field3 := fun i j k =>
  let g := gradY dx dy dz p i j k
  f i j k + two alpha g g.2.1 (avgY cl i j k) (avgY ca i j k) (avgY r i j k)

/-- z faces. -/
noncomputable def addTwoZ (dx dy dz alpha : ℝ) (p cl ca r f : Field3) : Field3 := fun i j k =>
  let g := gradZ dx dy dz p i j k
  f i j k + two alpha g g.2.2 (avgZ cl i j k) (avgZ ca i j k) (avgZ r i j k)

/-! ## Three phases -/

/-- Increment from one solid phase: `g` gradient of the liquid fraction, `n` its component normal to the face,
`gp` gradient of the solid fraction; source/fortran/3d/concentrationrhs.m4:758-797. -/
noncomputable def three (alpha : ℝ) (g : Grad) (n : ℝ) (gp : Grad) (cl cp dpdt : ℝ) : ℝ :=
  if |len2 g| > tol2 then
    if |len2 gp| > tol2 then
      let factor := -1 * (gp.1 * g.1 + gp.2.1 * g.2.1 + gp.2.2 * g.2.2) / (Real.sqrt (len2 gp) * Real.sqrt (len2 g))
      alpha * factor * (n / Real.sqrt (len2 g)) * (cl - cp) * dpdt
    else 0
  else 0

/-- `addconcentrationfluxfromantitrapping3phases`, source/fortran/3d/concentrationrhs.m4:700-921, x faces;
`p 1` is the liquid, `p 2` and `p 3` the solids. -/
noncomputable def addThreeX (dx dy dz alpha : ℝ) (p : ℕ → Field3) (cl ca cb : Field3) (r : ℕ → Field3)
    (f : Field3) : Field3 := fun i j k =>
  let g := gradX dx dy dz (p 1) i j k
  f i j k + three alpha g g.1 (gradX dx dy dz (p 2) i j k) (avgX cl i j k) (avgX ca i j k) (avgX (r 2) i j k)
    + three alpha g g.1 (gradX dx dy dz (p 3) i j k) (avgX cl i j k) (avgX cb i j k) (avgX (r 3) i j k)

/-- y faces. -/
noncomputable def addThreeY (dx dy dz alpha : ℝ) (p : ℕ → Field3) (cl ca cb : Field3) (r : ℕ → Field3)
    (f : Field3) : Field3 := fun i j k =>
  let g := gradY dx dy dz (p 1) i j k
  f i j k + three alpha g g.2.1 (gradY dx dy dz (p 2) i j k) (avgY cl i j k) (avgY ca i j k) (avgY (r 2) i j k)
    + three alpha g g.2.1 (gradY dx dy dz (p 3) i j k) (avgY cl i j k) (avgY cb i j k) (avgY (r 3) i j k)

/-- z faces. -/
noncomputable def addThreeZ (dx dy dz alpha : ℝ) (p : ℕ → Field3) (cl ca cb : Field3) (r : ℕ → Field3)
    (f : Field3) : Field3 := fun i j k =>
  let g := gradZ dx dy dz (p 1) i j k
  f i j k + three alpha g g.2.2 (gradZ dx dy dz (p 2) i j k) (avgZ cl i j k) (avgZ ca i j k) (avgZ (r 2) i j k)
    + three alpha g g.2.2 (gradZ dx dy dz (p 3) i j k) (avgZ cl i j k) (avgZ cb i j k) (avgZ (r 3) i j k)

/-! ## Several order parameters -/

/-- The gradient on an x face in the multi-order routine: the tangential components come from the four values
`vmm, vmp, vpm, vpp`; source/fortran/3d/concentrationrhs.m4:975-986. -/
noncomputable def quadX (dx dy dz : ℝ) (p : Field3) (i j k : ℤ) : Grad :=
  let vmm := 0.5 * (p (i - 1) (j - 1) (k - 1) + p i (j - 1) (k - 1))
  let vmp := 0.5 * (p (i - 1) (j - 1) k + p i (j - 1) k)
  let vpm := 0.5 * (p (i - 1) j (k - 1) + p i j (k - 1))
  let vpp := 0.5 * (p (i - 1) j k + p i j k)
  (1 / dx * (p i j k - p (i - 1) j k),
   1 / dy * 0.25 * (vpp + vpm - vmm - vmp),
   1 / dz * 0.25 * (vpp + vmp - vpm - vmm))

/-- The gradient on a y face; source/fortran/3d/concentrationrhs.m4:1034-1045. -/
noncomputable def quadY (dx dy dz : ℝ) (p : Field3) (i j k : ℤ) : Grad :=
  let vmm := 0.5 * (p (i - 1) (j - 1) (k - 1) + p (i - 1) j (k - 1))
  let vmp := 0.5 * (p (i - 1) (j - 1) k + p (i - 1) j k)
  let vpm := 0.5 * (p i (j - 1) (k - 1) + p i j (k - 1))
  let vpp := 0.5 * (p i (j - 1) k + p i j k)
  (1 / dx * 0.25 * (vpp + vpm - vmm - vmp),
   1 / dy * (p i j k - p i (j - 1) k),
   1 / dz * 0.25 * (vpp + vmp - vpm - vmm))

/-- The gradient on a z face; source/fortran/3d/concentrationrhs.m4:1092-1103. -/
noncomputable def quadZ (dx dy dz : ℝ) (p : Field3) (i j k : ℤ) : Grad :=
  let vmm := 0.5 * (p (i - 1) (j - 1) (k - 1) + p (i - 1) (j - 1) k)
  let vmp := 0.5 * (p (i - 1) j (k - 1) + p (i - 1) j k)
  let vpm := 0.5 * (p i (j - 1) (k - 1) + p i (j - 1) k)
  let vpp := 0.5 * (p i j (k - 1) + p i j k)
  (1 / dx * 0.25 * (vpp + vpm - vmm - vmp),
   1 / dy * 0.25 * (vpp + vmp - vpm - vmm),
   1 / dz * (p i j k - p i j (k - 1)))

/-- `addconcentrationfluxfromantitrappingmultiorderp`, source/fortran/3d/concentrationrhs.m4:928-1027, x faces.
In the loop over the solid order parameters `dphiy` and `dphiz` are overwritten (not `dphipy`, `dphipz`
accumulated), so that `dphip2` holds the last solid's `dphiz`, or the liquid's when there is no solid; `dphin` was
computed before the loop. -/
noncomputable def addMultiX (dx dy dz alpha : ℝ) (norderp : ℕ) (p : ℕ → Field3) (cl ca : Field3)
    (r : ℕ → Field3) (f : Field3) : Field3 := fun i j k =>
  let g := quadX dx dy dz (p norderp) i j k
  if len2 g > tol2 then
    let dphipx := ∑ ip ∈ Finset.Icc 1 (norderp - 1), (quadX dx dy dz (p ip) i j k).1
    let dphipy : ℝ := 0
    let dphiz := if 1 ≤ norderp - 1 then (quadX dx dy dz (p (norderp - 1)) i j k).2.2 else g.2.2
    let dpdt := ∑ ip ∈ Finset.Icc 1 (norderp - 1), avgX (r ip) i j k
    let dphip2 := dphipx * dphipx + dphipy * dphipy + dphiz * dphiz
    if dphip2 > tol2 then
      f i j k - alpha * (g.1 / Real.sqrt (len2 g)) * (avgX cl i j k - avgX ca i j k) * dpdt
    else f i j k
  else f i j k

/-- y faces: `dphip2` leaves out `dphipz`; source/fortran/3d/concentrationrhs.m4:1029-1085. -/
noncomputable def addMultiY (dx dy dz alpha : ℝ) (norderp : ℕ) (p : ℕ → Field3) (cl ca : Field3)
    (r : ℕ → Field3) (f : Field3) : Field3 := fun i j k =>
  let g := quadY dx dy dz (p norderp) i j k
  if len2 g > tol2 then
    let dphipx := ∑ ip ∈ Finset.Icc 1 (norderp - 1), (quadY dx dy dz (p ip) i j k).1
    let dphipy := ∑ ip ∈ Finset.Icc 1 (norderp - 1), (quadY dx dy dz (p ip) i j k).2.1
    let dpdt := ∑ ip ∈ Finset.Icc 1 (norderp - 1), avgY (r ip) i j k
    let dphip2 := dphipx * dphipx + dphipy * dphipy
    if dphip2 > tol2 then
      f i j k - alpha * (g.2.1 / Real.sqrt (len2 g)) * (avgY cl i j k - avgY ca i j k) * dpdt
    else f i j k
  else f i j k

/-- z faces: `dphip2` leaves out `dphipz`, the rate is averaged over the two cells next to the *y* face, and the
increment uses `dphiy`; source/fortran/3d/concentrationrhs.m4:1087-1143. -/
noncomputable def addMultiZ (dx dy dz alpha : ℝ) (norderp : ℕ) (p : ℕ → Field3) (cl ca : Field3)
    (r : ℕ → Field3) (f : Field3) : Field3 := fun i j k =>
  let g := quadZ dx dy dz (p norderp) i j k
  if len2 g > tol2 then
    let dphipx := ∑ ip ∈ Finset.Icc 1 (norderp - 1), (quadZ dx dy dz (p ip) i j k).1
    let dphipy := ∑ ip ∈ Finset.Icc 1 (norderp - 1), (quadZ dx dy dz (p ip) i j k).2.1
    let dpdt := ∑ ip ∈ Finset.Icc 1 (norderp - 1), avgY (r ip) i j k
    let dphip2 := dphipx * dphipx + dphipy * dphipy
    if dphip2 > tol2 then
      f i j k - alpha * (g.2.1 / Real.sqrt (len2 g)) * (avgZ cl i j k - avgZ ca i j k) * dpdt
    else f i j k
  else f i j k

end AMPE.AntiTrap3
