import Verif.Props.Flux

/-!
# C31, C50: solute currents do not prefer an axis, a side or a solid
-/

namespace AMPE.Flux.Props

/-- The picture with the axes exchanged. -/
def transposed (u : Field2) : Field2 := fun i j => u j i

/-- The picture seen from the other side: cell `i` becomes cell `-i - 1`, so side `i` becomes side `-i`. -/
def mirrored (u : Field2) : Field2 := fun i j => u (-i - 1) j

theorem grad_axes (dx dy : ℝ) (u : Field2) (i j : ℤ) : gradX dx dy (transposed u) i j = ((gradY dy dx u j i).2, (gradY dy dx u j i).1) := by
  simp only [gradX, gradY, transposed]

theorem avg_axes (u : Field2) (i j : ℤ) : avgX (transposed u) i j = avgY u j i := rfl

/-- **C50**: exchanging the two solids (their fractions, compositions and rates) leaves the three-phase current unchanged. -/
theorem c50_exchange_solids (dx dy alpha : ℝ) (phase phase' : ℕ → Field2) (cl ca cb : Field2) (dphidt dphidt' : ℕ → Field2) (flux : Field2)
    (h1 : phase' 1 = phase 1) (h2 : phase' 2 = phase 3) (h3 : phase' 3 = phase 2) (g2 : dphidt' 2 = dphidt 3) (g3 : dphidt' 3 = dphidt 2) :
    addAntitrap3X dx dy alpha phase' cl cb ca dphidt' flux = addAntitrap3X dx dy alpha phase cl ca cb dphidt flux ∧
    addAntitrap3Y dx dy alpha phase' cl cb ca dphidt' flux = addAntitrap3Y dx dy alpha phase cl ca cb dphidt flux := by
  constructor <;> funext i j <;> simp only [addAntitrap3X, addAntitrap3Y, h1, h2, h3, g2, g3] <;> ring

/-- **C50**: exchanging the axes exchanges the currents, for the three routines. -/
theorem c50_axes (dx dy alpha : ℝ) (n : ℕ) (phase : ℕ → Field2) (cl ca cb : Field2) (dphidt : ℕ → Field2) (flux : Field2) :
    (∀ u dudt, addAntitrap2X dx dy alpha (transposed u) (transposed cl) (transposed ca) (transposed dudt) (transposed flux) =
      transposed (addAntitrap2Y dy dx alpha u cl ca dudt flux)) ∧
    addAntitrap3X dx dy alpha (fun k => transposed (phase k)) (transposed cl) (transposed ca) (transposed cb) (fun k => transposed (dphidt k))
      (transposed flux) = transposed (addAntitrap3Y dy dx alpha phase cl ca cb dphidt flux) ∧
    addAntitrapMultiX dx dy alpha n (fun k => transposed (phase k)) (transposed cl) (transposed ca) (fun k => transposed (dphidt k))
      (transposed flux) = transposed (addAntitrapMultiY dy dx alpha n phase cl ca dphidt flux) := by
  refine ⟨fun u dudt => ?_, ?_, ?_⟩
  · funext i j
    simp only [addAntitrap2X, addAntitrap2Y, grad_axes, avg_axes, transposed, antitrap2, add_comm ((gradY dy dx u j i).2 * (gradY dy dx u j i).2)]
  · funext i j
    simp only [addAntitrap3X, addAntitrap3Y, grad_axes, avg_axes, transposed, antitrap3,
      add_comm ((gradY dy dx (phase 1) j i).2 * (gradY dy dx (phase 1) j i).2),
      add_comm ((gradY dy dx (phase 2) j i).2 * (gradY dy dx (phase 2) j i).2),
      add_comm ((gradY dy dx (phase 3) j i).2 * (gradY dy dx (phase 3) j i).2),
      add_comm ((gradY dy dx (phase 2) j i).2 * (gradY dy dx (phase 1) j i).2),
      add_comm ((gradY dy dx (phase 3) j i).2 * (gradY dy dx (phase 1) j i).2)]
  · funext i j
    simp only [addAntitrapMultiX, addAntitrapMultiY, grad_axes, avg_axes, transposed, antitrapMulti,
      add_comm ((gradY dy dx (phase n) j i).2 * (gradY dy dx (phase n) j i).2),
      add_comm ((∑ ip ∈ Finset.Icc 1 (n - 1), (gradY dy dx (phase ip) j i).2) * (∑ ip ∈ Finset.Icc 1 (n - 1), (gradY dy dx (phase ip) j i).2))]

/-- **C50**: seen from the other side the two-phase current is the opposite. -/
theorem c50_mirror (dx dy alpha : ℝ) (u cl ca dudt : Field2) (i j : ℤ) :
    addAntitrap2X dx dy alpha (mirrored u) (mirrored cl) (mirrored ca) (mirrored dudt) (fun _ _ => 0) i j =
      -addAntitrap2X dx dy alpha u cl ca dudt (fun _ _ => 0) (-i) j := by
  have e1 : -(i - 1) - 1 = -i := by ring
  have eg : gradX dx dy (mirrored u) i j = (-(gradX dx dy u (-i) j).1, (gradX dx dy u (-i) j).2) := by
    simp only [gradX, mirrored, e1, Prod.mk.injEq]
    constructor <;> ring
  have ea : ∀ v : Field2, avgX (mirrored v) i j = avgX v (-i) j := fun v => by
    simp only [avgX, mirrored, e1]; ring
  simp only [addAntitrap2X, eg, ea, antitrap2, neg_mul_neg, zero_add]
  split_ifs
  · ring
  · ring

/-- **C31**: exchanging the axes exchanges the fluxes of the spinodal routine; in 3D on a stack of equal layers the y flux, before the z
block resets it, is that of the layer. -/
theorem c31_spinodal_axes (dx kappa : ℝ) (conc conca concb diff eta : Field2) (i j k : ℤ) :
    spinodalX dx kappa (transposed conc) (transposed conca) (transposed concb) (transposed diff) (transposed eta) i j =
      spinodalY dx kappa conc conca concb diff eta j i ∧
    spinodal3Y dx kappa (fun i j _ => conc i j) (fun i j _ => conca i j) (fun i j _ => concb i j) (fun i j _ => diff i j) (fun i j _ => eta i j)
      i j k = spinodalY dx kappa conc conca concb diff eta i j := ⟨rfl, rfl⟩

/-- **C31**: seen from the other side the flux of the spinodal routine is the opposite (the coefficients live on the sides). -/
theorem c31_spinodal_mirror (dx kappa : ℝ) (conc conca concb diff eta : Field2) (i j : ℤ) :
    spinodalX dx kappa (mirrored conc) (mirrored conca) (mirrored concb) (fun i j => diff (-i) j) (mirrored eta) i j =
      -spinodalX dx kappa conc conca concb diff eta (-i) j := by
  have e1 : -(i - 1) - 1 = -i := by ring
  simp only [spinodalX, mirrored, e1]
  ring

/-- Nothing above is about zero currents only: at this interface the two-phase current is not zero. -/
example : addAntitrap2X 1 1 1 (fun i _ => i) (fun _ _ => 1) (fun _ _ => 0) (fun _ _ => 1) (fun _ _ => 0) 0 0 = 1 := by
  simp [addAntitrap2X, antitrap2, gradX, avgX, tol2]
  norm_num

/-! ## Diffusion fluxes in three dimensions -/

/-- The sample with its first two axes exchanged. -/
def swapXY (u : Field3) : Field3 := fun i j k => u j i k

/-- The sample with its last two axes exchanged. -/
def swapYZ (u : Field3) : Field3 := fun i j k => u i k j

/-- The sample seen from the other side along the second axis (fields of cells and of sides across the other axes). -/
def mirrorY (u : Field3) : Field3 := fun i j k => u i (-j - 1) k

/-- **C32**: neither 3D diffusion flux prefers an axis: exchanging two axes of the sample exchanges the fluxes. -/
theorem c32_axes_3d (h : ℝ) (depth : ℕ) (u d f : ℕ → Field3) (i : ℕ) :
    addFlux3Y h depth (fun j => swapXY (u j)) (fun j => swapXY (d j)) (fun j => swapXY (f j)) i
      = swapXY (addFlux3X h depth u d f i) ∧
    addFlux3Z h depth (fun j => swapYZ (u j)) (fun j => swapYZ (d j)) (fun j => swapYZ (f j)) i
      = swapYZ (addFlux3Y h depth u d f i) ∧
    addFluxIso3Y h depth (fun j => swapXY (u j)) (fun j => swapXY (d j)) (fun j => swapXY (f j)) i
      = swapXY (addFluxIso3X h depth u d f i) ∧
    addFluxIso3Z h depth (fun j => swapYZ (u j)) (fun j => swapYZ (d j)) (fun j => swapYZ (f j)) i
      = swapYZ (addFluxIso3Y h depth u d f i) := by
  refine ⟨?_, ?_, ?_, ?_⟩ <;> funext a b c
  · simp only [addFlux3X, addFlux3Y, swapXY]
  · simp only [addFlux3Y, addFlux3Z, swapYZ]
  · simp only [addFluxIso3X, addFluxIso3Y, swapXY]
    congr 1
    exact Finset.sum_congr rfl fun _ _ => by ring
  · simp only [addFluxIso3Y, addFluxIso3Z, swapYZ]

/-- **C32**: the flux across x sides does not prefer a side along the other axes: seen from the other side along y,
or with y and z exchanged, it is the same flux. -/
theorem c32_transverse_3d (h : ℝ) (depth : ℕ) (u d f : ℕ → Field3) (i : ℕ) :
    addFluxIso3X h depth (fun j => mirrorY (u j)) (fun j => mirrorY (d j)) (fun j => mirrorY (f j)) i
      = mirrorY (addFluxIso3X h depth u d f i) ∧
    addFluxIso3X h depth (fun j => swapYZ (u j)) (fun j => swapYZ (d j)) (fun j => swapYZ (f j)) i
      = swapYZ (addFluxIso3X h depth u d f i) := by
  have e1 : ∀ b : ℤ, -(b - 1) - 1 = -b - 1 + 1 := fun b => by ring
  have e2 : ∀ b : ℤ, -(b + 1) - 1 = -b - 1 - 1 := fun b => by ring
  constructor <;> funext a b c
  · simp only [addFluxIso3X, mirrorY, e1, e2]
    congr 1
    exact Finset.sum_congr rfl fun _ _ => by ring
  · simp only [addFluxIso3X, swapYZ]
    congr 1
    exact Finset.sum_congr rfl fun _ _ => by ring

/-- Point value of a quadratic in three variables at the centre of cell `(i, j, k)`. -/
noncomputable def quad3 (c0 cx cy cz cxx cyy czz cxy cxz cyz hx hy hz : ℝ) : Field3 := fun i j k =>
  let x := ((i : ℝ) + 1 / 2) * hx
  let y := ((j : ℝ) + 1 / 2) * hy
  let z := ((k : ℝ) + 1 / 2) * hz
  c0 + cx * x + cy * y + cz * z + cxx * x ^ 2 + cyy * y ^ 2 + czz * z ^ 2 + cxy * x * y + cxz * x * z + cyz * y * z

/-- **C32**: with a constant coefficient `D` the second-order and the isotropic 3D fluxes of any quadratic are `D`
times its exact derivative at the centre of the side. -/
theorem c32_exact_quadratic_3d (c0 cx cy cz cxx cyy czz cxy cxz cyz hx hy hz D : ℝ) (hhx : hx ≠ 0) (hhy : hy ≠ 0)
    (hhz : hz ≠ 0) (f : ℕ → Field3) (i j k : ℤ) :
    let u : ℕ → Field3 := fun _ => quad3 c0 cx cy cz cxx cyy czz cxy cxz cyz hx hy hz
    let d : ℕ → Field3 := fun _ _ _ _ => D
    let x := ((i : ℝ) + 1 / 2) * hx
    let y := ((j : ℝ) + 1 / 2) * hy
    let z := ((k : ℝ) + 1 / 2) * hz
    let gx := cx + 2 * cxx * ((i : ℝ) * hx) + cxy * y + cxz * z
    let gy := cy + 2 * cyy * ((j : ℝ) * hy) + cxy * x + cyz * z
    let gz := cz + 2 * czz * ((k : ℝ) * hz) + cxz * x + cyz * y
    addFlux3X hx 1 u d f 1 i j k = f 1 i j k + D * gx ∧ addFluxIso3X hx 1 u d f 1 i j k = f 1 i j k + D * gx ∧
    addFlux3Y hy 1 u d f 1 i j k = f 1 i j k + D * gy ∧ addFluxIso3Y hy 1 u d f 1 i j k = f 1 i j k + D * gy ∧
    addFlux3Z hz 1 u d f 1 i j k = f 1 i j k + D * gz ∧ addFluxIso3Z hz 1 u d f 1 i j k = f 1 i j k + D * gz := by
  intro u d x y z gx gy gz
  simp only [addFlux3X, addFlux3Y, addFlux3Z, addFluxIso3X, addFluxIso3Y, addFluxIso3Z, Finset.Icc_self,
    Finset.sum_singleton, u, d, quad3, gx, gy, gz, x, y, z]
  push_cast
  refine ⟨?_, ?_, ?_, ?_, ?_, ?_⟩ <;> (field_simp; ring)

/-- Several components, each receiving a share of the differences of the others. -/
example : addFluxIso3Y 2 2 (fun j => swapXY (fun a b c => (j : ℝ) * a + b * c)) (fun _ => swapXY (fun a _ _ => (a : ℝ)))
    (fun _ => swapXY (fun _ _ _ => 0)) 1 3 4 5
    = addFluxIso3X 2 2 (fun j a b c => (j : ℝ) * a + b * c) (fun _ a _ _ => (a : ℝ)) (fun _ _ _ _ => 0) 1 4 3 5 :=
  congrFun (congrFun (congrFun (c32_axes_3d 2 2 (fun j a b c => (j : ℝ) * a + b * c) (fun _ a _ _ => (a : ℝ))
    (fun _ _ _ _ => 0) 1).2.2.1 3) 4) 5

end AMPE.Flux.Props
