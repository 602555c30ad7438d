import Verif.Model.Quat
import Verif.Model.Flux
import Mathlib.Analysis.SpecialFunctions.Trigonometric.Inverse
import Mathlib.Analysis.SpecialFunctions.Trigonometric.Arctan

/-!
# Anisotropic interface energy and flux (source/fortran/{2d,3d}/quatrhs.m4: `anisotropic_gradient_flux`,
`compute_dgamma`; source/fortran/{2d,3d}/quatenergy.m4: `interface_anisotropic_energy`, `compute_n4`)

Reals for `double`; the single-precision literals (`1.e-12`, `0.5`, `4.`) stand for their decimal value.
-/

namespace AMPE.Anisotropy

open AMPE.Quat AMPE.Flux

/-- The cut-off `1.e-12` (source/fortran/2d/quatrhs.m4:193, source/fortran/3d/quatrhs.m4:214, source/fortran/2d/quatenergy.m4:66). -/
noncomputable def cut : ℝ := 1 / 10 ^ 12

/-- The angle of the normal, source/fortran/2d/quatrhs.m4:193-197, 231-235; source/fortran/2d/quatenergy.m4:66-70. -/
noncomputable def theta (px py : ℝ) : ℝ := if |px| > cut then Real.arctan (py / px) else Real.pi / 2

/-- `if( q .gt. 1 )q=1; if( q .lt. -1 )q=-1`, source/fortran/2d/quatrhs.m4:202-203. -/
noncomputable def clampQ (q : ℝ) : ℝ :=
  let q := if q > 1 then 1 else q
  if q < -1 then -1 else q

/-- The reference angle from the first component of the orientation, source/fortran/2d/quatrhs.m4:202-209, 238-245;
source/fortran/2d/quatenergy.m4:75-82. -/
noncomputable def refAngle (qlen : ℕ) (q : ℝ) : ℝ :=
  if qlen = 4 then 2 * Real.arccos (clampQ q) else Real.arccos (clampQ q)

/-- `epstheta`, source/fortran/2d/quatrhs.m4:211, 247; source/fortran/2d/quatenergy.m4:84-85. -/
noncomputable def epsTheta (eps nu : ℝ) (k : ℕ) (th ref : ℝ) : ℝ := eps * (1 + nu * Real.cos (k * (th - ref)))

/-- `depsdtheta`, source/fortran/2d/quatrhs.m4:212, 248. -/
noncomputable def dEps (eps nu : ℝ) (k : ℕ) (th ref : ℝ) : ℝ := -k * eps * nu * Real.sin (k * (th - ref))

/-- The x flux for a given gradient, source/fortran/2d/quatrhs.m4:214-215. -/
noncomputable def flux0 (eps nu : ℝ) (k : ℕ) (ref px py : ℝ) : ℝ :=
  let th := theta px py
  epsTheta eps nu k th ref * epsTheta eps nu k th ref * px - epsTheta eps nu k th ref * dEps eps nu k th ref * py

/-- The y flux for a given gradient, source/fortran/2d/quatrhs.m4:250-251. -/
noncomputable def flux1 (eps nu : ℝ) (k : ℕ) (ref px py : ℝ) : ℝ :=
  let th := theta px py
  epsTheta eps nu k th ref * epsTheta eps nu k th ref * py + epsTheta eps nu k th ref * dEps eps nu k th ref * px

/-- The energy density for a given gradient, source/fortran/2d/quatenergy.m4:84-89. -/
noncomputable def energy2 (eps nu : ℝ) (k : ℕ) (ref px py : ℝ) : ℝ :=
  let e := epsTheta eps nu k (theta px py) ref
  1 / 2 * e * e * (px * px + py * py)

/-- Gradient on the x face between cells (i-1,j) and (i,j), source/fortran/2d/quatrhs.m4:189-192. -/
noncomputable def gradX (h0 h1 : ℝ) (u : Field2) (i j : ℤ) : ℝ × ℝ :=
  ((u i j - u (i - 1) j) * (1 / h0),
   1 / 4 * (u (i - 1) (j + 1) - u (i - 1) (j - 1) + u i (j + 1) - u i (j - 1)) * (1 / h1))

/-- Gradient on the y face between cells (i,j-1) and (i,j), source/fortran/2d/quatrhs.m4:226-229. -/
noncomputable def gradY (h0 h1 : ℝ) (u : Field2) (i j : ℤ) : ℝ × ℝ :=
  (1 / 4 * (u (i + 1) (j - 1) - u (i - 1) (j - 1) + u (i + 1) j - u (i - 1) j) * (1 / h0),
   (u i j - u i (j - 1)) * (1 / h1))

/-- Gradient in a cell, source/fortran/2d/quatenergy.m4:47-48, 64-65. -/
noncomputable def gradC (h0 h1 : ℝ) (u : Field2) (i j : ℤ) : ℝ × ℝ :=
  ((u (i + 1) j - u (i - 1) j) * (1 / 2 / h0), (u i (j + 1) - u i (j - 1)) * (1 / 2 / h1))

/-- `flux0(i,j)` of `anisotropic_gradient_flux`, source/fortran/2d/quatrhs.m4:187-221; `q` is the first component of the
orientation. -/
noncomputable def fluxX (h0 h1 eps nu : ℝ) (k qlen : ℕ) (u q : Field2) (i j : ℤ) : ℝ :=
  flux0 eps nu k (refAngle qlen (1 / 2 * (q (i - 1) j + q i j))) (gradX h0 h1 u i j).1 (gradX h0 h1 u i j).2

/-- `flux1(i,j)` of `anisotropic_gradient_flux`, source/fortran/2d/quatrhs.m4:224-253. -/
noncomputable def fluxY (h0 h1 eps nu : ℝ) (k qlen : ℕ) (u q : Field2) (i j : ℤ) : ℝ :=
  flux1 eps nu k (refAngle qlen (1 / 2 * (q i (j - 1) + q i j))) (gradY h0 h1 u i j).1 (gradY h0 h1 u i j).2

/-- The energy density of one cell and one order parameter, source/fortran/2d/quatenergy.m4:64-89. -/
noncomputable def cellEnergy2 (h0 h1 eps nu : ℝ) (k qlen : ℕ) (u q : Field2) (i j : ℤ) : ℝ :=
  energy2 eps nu k (refAngle qlen (q i j)) (gradC h0 h1 u i j).1 (gradC h0 h1 u i j).2

/-! ## Three dimensions -/

/-- `quatconj`, source/fortran/quat.f:915-927. -/
def quatconj (q : Q4) : Q4 := ⟨q.q1, -q.q2, -q.q3, -q.q4⟩

/-- The rotated normal `np`, source/fortran/3d/quatrhs.m4:157-161; source/fortran/3d/quatenergy.m4:23-27. -/
def np (q n : Q4) : Q4 := quatmult4 q (quatmult4 n (quatconj q))

/-- `n4` of `compute_n4` (source/fortran/3d/quatenergy.m4:15-34) and of `compute_dgamma` (source/fortran/3d/quatrhs.m4:165). -/
def n4 (q n : Q4) : ℝ := (np q n).q2 ^ 4 + (np q n).q3 ^ 4 + (np q n).q4 ^ 4

/-- `dgamma` of `compute_dgamma`, source/fortran/3d/quatrhs.m4:149-177. -/
def dgamma (q n : Q4) : Q4 :=
  let m := np q n
  let d : Q4 := ⟨0, m.q2 * (m.q2 * m.q2 - n4 q n), m.q3 * (m.q3 * m.q3 - n4 q n), m.q4 * (m.q4 * m.q4 - n4 q n)⟩
  quatmult4 (quatconj q) (quatmult4 d q)

/-- The normal `n`, source/fortran/3d/quatrhs.m4:233-237. -/
noncomputable def normal (px py pz : ℝ) : Q4 :=
  let nni := 1 / Real.sqrt (px * px + py * py + pz * pz)
  ⟨0, px * nni, py * nni, pz * nni⟩

/-- `n4` as used by the flux and by the energy, with the cut-off: source/fortran/3d/quatrhs.m4:232-251; source/fortran/3d/quatenergy.m4:106-121. -/
noncomputable def n4c (q : Q4) (px py pz : ℝ) : ℝ :=
  if |px * px + py * py + pz * pz| > cut then n4 q (normal px py pz) else 0

/-- `gamma`, source/fortran/3d/quatrhs.m4:213, 253; `epstheta`, source/fortran/3d/quatenergy.m4:81, 123-124. -/
noncomputable def gam (eps e4 n : ℝ) : ℝ := eps * (1 - 3 * e4) * (1 + 4 * e4 / (1 - 3 * e4) * n)

/-- The three face fluxes for a given gradient, source/fortran/3d/quatrhs.m4:255-256, 298-299, 341-342.  Below the cut-off the
components of `dgamma` that the three faces use (2, 3, 4) are zero: source/fortran/3d/quatrhs.m4:245-251, 288-294, 331-337. -/
noncomputable def flux3 (eps e4 : ℝ) (q : Q4) (px py pz : ℝ) : ℝ × ℝ × ℝ :=
  let g2 := px * px + py * py + pz * pz
  let d : Q4 := if |g2| > cut then dgamma q (normal px py pz) else ⟨0, 0, 0, 0⟩
  let g := gam eps e4 (n4c q px py pz)
  (g * g * px + 16 * eps * g * e4 * Real.sqrt g2 * d.q2,
   g * g * py + 16 * eps * g * e4 * Real.sqrt g2 * d.q3,
   g * g * pz + 16 * eps * g * e4 * Real.sqrt g2 * d.q4)

/-- The energy density for a given gradient, source/fortran/3d/quatenergy.m4:123-126. -/
noncomputable def energy3 (eps e4 : ℝ) (q : Q4) (px py pz : ℝ) : ℝ :=
  let e := gam eps e4 (n4c q px py pz)
  1 / 2 * e * e * (px * px + py * py + pz * pz)

/-- The orientation on a face: the mean of the two cells, not normalised, source/fortran/3d/quatrhs.m4:239-242. -/
noncomputable def faceQ (a b : Q4) : Q4 :=
  ⟨1 / 2 * (a.q1 + b.q1), 1 / 2 * (a.q2 + b.q2), 1 / 2 * (a.q3 + b.q3), 1 / 2 * (a.q4 + b.q4)⟩

end AMPE.Anisotropy
