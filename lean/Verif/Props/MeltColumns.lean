import Verif.Props.MeltFlow3

/-!
# C124: a pure melt does not depend on how the sample is placed in the grid

Samples that do not vary along z (the 3D program against the 2D program), exchange of axes and reflections.
-/

namespace AMPE.MeltFlow.Props

open AMPE.Functions AMPE.Functions.Props AMPE.Flux AMPE.Flux.Props AMPE.PhaseRHS AMPE.PhaseRHS.Props AMPE.Thermal
  AMPE.Thermal.Props AMPE.MeltFlow

/-! ### Specification -/

/-- A 2D field stacked along z. -/
def stack (u : Field2) : Field3 := fun i j _ => u i j

/-- How far a temperature is from the mean of its four neighbours (times four). -/
def bend (T : Field2) (i j : ℤ) : ℝ := T (i - 1) j + T i (j - 1) + T (i + 1) j + T i (j + 1) - 4 * T i j

/-- Exchange of the axes x and y. -/
def xy (u : Field3) : Field3 := fun i j k => u j i k

/-- Exchange of the axes y and z. -/
def yz (u : Field3) : Field3 := fun i j k => u i k j

/-- Reflection of the x axis. -/
def mirror (u : Field3) : Field3 := fun i j k => u (-i) j k

/-! ### Helpers -/

theorem stack_div (eps dx dy dz : ℝ) (phi : Field2) (i j k : ℤ) :
    div3 dx dy dz (gradFlux3X eps dx (stack phi)) (gradFlux3Y eps dy (stack phi)) (gradFlux3Z eps dz (stack phi)) i j k =
      div2 dx dy (gradFluxX eps dx phi) (gradFluxY eps dy phi) i j := by
  simp [div3, div2, gradFlux3X, gradFlux3Y, gradFlux3Z, gradFluxX, gradFluxY, stack]

theorem xy_div (eps dx dy dz : ℝ) (phi : Field3) (i j k : ℤ) :
    div3 dy dx dz (gradFlux3X eps dy (xy phi)) (gradFlux3Y eps dx (xy phi)) (gradFlux3Z eps dz (xy phi)) i j k =
      div3 dx dy dz (gradFlux3X eps dx phi) (gradFlux3Y eps dy phi) (gradFlux3Z eps dz phi) j i k := by
  simp only [div3, gradFlux3X, gradFlux3Y, gradFlux3Z, xy]
  ring

theorem yz_div (eps dx dy dz : ℝ) (phi : Field3) (i j k : ℤ) :
    div3 dx dz dy (gradFlux3X eps dx (yz phi)) (gradFlux3Y eps dz (yz phi)) (gradFlux3Z eps dy (yz phi)) i j k =
      div3 dx dy dz (gradFlux3X eps dx phi) (gradFlux3Y eps dy phi) (gradFlux3Z eps dz phi) i k j := by
  simp only [div3, gradFlux3X, gradFlux3Y, gradFlux3Z, yz]
  ring

theorem mirror_div (eps dx dy dz : ℝ) (phi : Field3) (i j k : ℤ) :
    div3 dx dy dz (gradFlux3X eps dx (mirror phi)) (gradFlux3Y eps dy (mirror phi)) (gradFlux3Z eps dz (mirror phi)) i j k =
      div3 dx dy dz (gradFlux3X eps dx phi) (gradFlux3Y eps dy phi) (gradFlux3Z eps dz phi) (-i) j k := by
  have h1 : -(i + 1) = -i - 1 := by ring
  have h2 : -(i - 1) = -i + 1 := by ring
  simp only [div3, gradFlux3X, gradFlux3Y, gradFlux3Z, mirror, h1, h2, add_sub_cancel_right]
  ring

/-! ### Theorems -/

/-- Stacks, `TemperatureFreeEnergyStrategy`: the rates are those of the layer. -/
theorem c124_stack_phase_partial (interp : Char) (eps scale dx dy dz fa tm L : ℝ) (mob T phi : Field2) (i j k : ℤ) :
    phaseRate3 .temperature interp eps scale dx dy dz fa tm L (stack mob) (stack T) (stack phi) i j k =
      phaseRate2 .temperature interp eps scale dx dy fa tm L mob T phi i j := by
  simp only [phaseRate3, phaseRate2, stack_div, addForce3, addForce2, stack]

/-- Stacks, `DeltaTemperatureFreeEnergyStrategy`: the 3D program differs by a term with the curvature of the temperature, since the
neighbours above and below count as the cell itself. -/
theorem c124_stack_delta (interp : Char) (eps scale dx dy dz fa tm L : ℝ) (mob T phi : Field2) (i j k : ℤ) {hp x : ℝ}
    (hd : derivInterpFunc interp (phi i j) = some hp)
    (hx : phaseRate2 .delta interp eps scale dx dy fa tm L mob T phi i j = some x) :
    phaseRate3 .delta interp eps scale dx dy dz fa tm L (stack mob) (stack T) (stack phi) i j k =
      some (x + mob i j * (L / tm * hp * bend T i j / 48)) := by
  have hpbg : ∀ y, pbgCell 'd' 'd' interp 'c' 'c' scale 0 0 0 false false y (phi i j) 0 0 0 =
      some (y - scale * (32 * phi i j * (1 - phi i j) * (1 - 2 * phi i j))) := fun y => by
    simp [pbgCell, derivWellFunc]
  simp only [phaseRate2, hpbg, addForce2, deltaTemperature, hd, Option.bind_eq_bind, Option.bind_some, Option.map_some,
    Option.some.injEq] at hx
  simp only [phaseRate3, stack_div, stack, hpbg, addForce3, deltaTemperature3, hd, Option.bind_eq_bind, Option.bind_some,
    Option.map_some, Option.some.injEq]
  rw [← hx]
  unfold bend
  ring

/-- Hence the rates agree exactly where the slope of the interpolation or the curvature of the temperature vanishes. -/
theorem c124_violation_delta (interp : Char) (eps scale dx dy dz fa tm L : ℝ) (hL : L ≠ 0) (htm : tm ≠ 0) (mob T phi : Field2)
    (i j k : ℤ) (hm : mob i j ≠ 0) {hp x : ℝ} (hd : derivInterpFunc interp (phi i j) = some hp)
    (hx : phaseRate2 .delta interp eps scale dx dy fa tm L mob T phi i j = some x) :
    phaseRate3 .delta interp eps scale dx dy dz fa tm L (stack mob) (stack T) (stack phi) i j k = some x ↔
      hp = 0 ∨ bend T i j = 0 := by
  rw [c124_stack_delta interp eps scale dx dy dz fa tm L mob T phi i j k hd hx, Option.some.injEq, add_eq_left]
  constructor
  · intro h
    have h1 : L / tm * hp * bend T i j / 48 = 0 := (mul_eq_zero.1 h).resolve_left hm
    have h2 : L / tm ≠ 0 := div_ne_zero hL htm
    rcases mul_eq_zero.1 ((div_eq_zero_iff.1 h1).resolve_right (by norm_num)) with h3 | h3
    · exact Or.inl ((mul_eq_zero.1 h3).resolve_left h2)
    · exact Or.inr h3
  · rintro (h | h) <;> rw [h] <;> simp

/-- Stacks: the temperature rates are those of the layer. -/
theorem c124_stack_heat (dx dy dz D L : ℝ) (b : Bool) (T cp v : Field2) (i j k : ℤ) :
    rhsTemp3 dx dy dz D L b (stack T) (stack cp) (stack v) i j k = rhsTemp2 dx dy D L b T cp v i j := by
  have : laplacian3 dx dy dz D (stack T) i j k = laplacian2 dx dy D T i j := by
    simp only [laplacian3, laplacian2, stack]
    ring
  simp only [rhsTemp3, rhsTemp2, this, stack]

/-- Stacks, `TemperatureFreeEnergyStrategy`: runs of the 3D program are runs of the 2D program. -/
theorem c124_stack_run_partial (interp : Char) (eps scale dx dy dz fa tm L cp D : ℝ) (mob : Field2) (phi T : ℝ → Field2) (t : ℝ) :
    Follows3 .temperature interp eps scale dx dy dz fa tm L cp D (stack mob) (fun s => stack (phi s)) (fun s => stack (T s)) t ↔
      Follows2 .temperature interp eps scale dx dy fa tm L cp D mob phi T t := by
  constructor
  · rintro ⟨v, h1, h2, h3⟩
    refine ⟨fun i j => v i j 0, fun i j => h1 i j 0, fun i j => ?_, fun i j => ?_⟩
    · rw [← h2 i j 0, c124_stack_phase_partial]
    · refine (h3 i j 0).congr_deriv ?_
      rw [← c124_stack_heat dx dy dz D L true (T t) (fun _ _ => cp) (fun i j => v i j 0) i j 0]
      simp [rhsTemp3, stack]
  · rintro ⟨v, h1, h2, h3⟩
    refine ⟨stack v, fun i j _ => h1 i j, fun i j k => ?_, fun i j k => ?_⟩
    · rw [c124_stack_phase_partial, h2]
      rfl
    · exact (h3 i j).congr_deriv (c124_stack_heat dx dy dz D L true (T t) (fun _ _ => cp) v i j k).symm

/-- Stacks, `DeltaTemperatureFreeEnergyStrategy`: a run that both programs give has no curvature of the temperature where the
interpolation has a slope. -/
theorem c124_violation_delta_run (interp : Char) (eps scale dx dy dz fa tm L cp D : ℝ) (hL : L ≠ 0) (htm : tm ≠ 0) (mob : Field2)
    (hm : ∀ i j, mob i j ≠ 0) (phi T : ℝ → Field2) (t : ℝ)
    (h2 : Follows2 .delta interp eps scale dx dy fa tm L cp D mob phi T t)
    (h3 : Follows3 .delta interp eps scale dx dy dz fa tm L cp D (stack mob) (fun s => stack (phi s)) (fun s => stack (T s)) t)
    (i j : ℤ) : derivInterpFunc interp (phi t i j) = some 0 ∨ bend (T t) i j = 0 := by
  obtain ⟨v, a1, a2, _⟩ := h2
  obtain ⟨v', b1, b2, _⟩ := h3
  have e : v' i j 0 = v i j := (b1 i j 0).unique (a1 i j)
  obtain ⟨hp, hd, _⟩ := rate_eq .delta interp eps scale dx dy fa tm L htm mob (T t) (phi t) i j _ (a2 i j)
  have hb := b2 i j 0
  rw [e] at hb
  rcases (c124_violation_delta interp eps scale dx dy dz fa tm L hL htm mob (T t) (phi t) i j 0 (hm i j) hd (a2 i j)).1 hb with h | h
  · exact Or.inl (by rw [hd, h])
  · exact Or.inr h

/-- Stacks: the energy of the interface is that of the layer, times the number of layers. -/
theorem c124_stack_energy (eps scale dx dy dz w : ℝ) (N M K : ℕ) (lo0 lo1 lo2 : ℤ) (u : Field2) {e : ℝ}
    (h : interfaceEnergy2 eps scale dx dy (fun _ => w) lo0 (lo0 + N - 1) lo1 (lo1 + M - 1) u = some e) :
    interfaceEnergy3 eps scale dx dy dz (fun _ => w) lo0 (lo0 + N - 1) lo1 (lo1 + M - 1) lo2 (lo2 + K - 1) (stack u) =
      some (K * e) := by
  rw [interface_some, Option.some.injEq] at h
  rw [interface_some3, Option.some.injEq, ← h]
  have e : (K : ℝ) * (∑ b ∈ Finset.range M, ∑ a ∈ Finset.range N, (interfaceCell eps dx dy u (lo0 + (a : ℤ)) (lo1 + (b : ℤ))
        + (fun (_ _ : ℤ) x => scale * (16 * x * x * (1 - x) * (1 - x))) (lo0 + (a : ℤ)) (lo1 + (b : ℤ))
          (u (lo0 + (a : ℤ)) (lo1 + (b : ℤ)))) * w) =
      ∑ _c ∈ Finset.range K, ∑ b ∈ Finset.range M, ∑ a ∈ Finset.range N, (interfaceCell eps dx dy u (lo0 + (a : ℤ)) (lo1 + (b : ℤ))
        + (fun (_ _ : ℤ) x => scale * (16 * x * x * (1 - x) * (1 - x))) (lo0 + (a : ℤ)) (lo1 + (b : ℤ))
          (u (lo0 + (a : ℤ)) (lo1 + (b : ℤ)))) * w := by
    rw [Finset.sum_const, Finset.card_range, nsmul_eq_mul]
  rw [e]
  refine Finset.sum_congr rfl fun c _ => Finset.sum_congr rfl fun b _ => Finset.sum_congr rfl fun a _ => ?_
  simp only [interfaceCell3, interfaceCell, stack]
  ring

/-- Exchange of x and y: rates move along, for both strategies. -/
theorem c124_exchange_xy (kind : Kind) (interp : Char) (eps scale dx dy dz fa tm L D : ℝ) (b : Bool) (mob T phi cp v : Field3) (i j k : ℤ) :
    phaseRate3 kind interp eps scale dy dx dz fa tm L (xy mob) (xy T) (xy phi) i j k =
      phaseRate3 kind interp eps scale dx dy dz fa tm L mob T phi j i k ∧
    rhsTemp3 dy dx dz D L b (xy T) (xy cp) (xy v) i j k = rhsTemp3 dx dy dz D L b T cp v j i k := by
  constructor
  · cases kind
    · simp only [phaseRate3, xy_div, addForce3]
      simp only [deltaTemperature3, xy]
      rw [show T j (i - 1) k + T (j - 1) i k + T j (i + 1) k + T (j + 1) i k
        = T (j - 1) i k + T j (i - 1) k + T (j + 1) i k + T j (i + 1) k by ring]
    · simp only [phaseRate3, xy_div, addForce3, xy]
  · have : laplacian3 dy dx dz D (xy T) i j k = laplacian3 dx dy dz D T j i k := by
      simp only [laplacian3, xy]
      ring
    simp only [rhsTemp3, this, xy]

/-- Exchange of y and z. -/
theorem c124_exchange_yz (kind : Kind) (interp : Char) (eps scale dx dy dz fa tm L D : ℝ) (b : Bool) (mob T phi cp v : Field3) (i j k : ℤ) :
    phaseRate3 kind interp eps scale dx dz dy fa tm L (yz mob) (yz T) (yz phi) i j k =
      phaseRate3 kind interp eps scale dx dy dz fa tm L mob T phi i k j ∧
    rhsTemp3 dx dz dy D L b (yz T) (yz cp) (yz v) i j k = rhsTemp3 dx dy dz D L b T cp v i k j := by
  constructor
  · cases kind
    · simp only [phaseRate3, yz_div, addForce3]
      simp only [deltaTemperature3, yz]
      rw [show T (i - 1) k j + T i k (j - 1) + T (i + 1) k j + T i k (j + 1) + T i (k - 1) j + T i (k + 1) j
        = T (i - 1) k j + T i (k - 1) j + T (i + 1) k j + T i (k + 1) j + T i k (j - 1) + T i k (j + 1) by ring]
    · simp only [phaseRate3, yz_div, addForce3, yz]
  · have : laplacian3 dx dz dy D (yz T) i j k = laplacian3 dx dy dz D T i k j := by
      simp only [laplacian3, yz]
      ring
    simp only [rhsTemp3, this, yz]

/-- Reflection. -/
theorem c124_mirror (kind : Kind) (interp : Char) (eps scale dx dy dz fa tm L D : ℝ) (b : Bool) (mob T phi cp v : Field3) (i j k : ℤ) :
    phaseRate3 kind interp eps scale dx dy dz fa tm L (mirror mob) (mirror T) (mirror phi) i j k =
      phaseRate3 kind interp eps scale dx dy dz fa tm L mob T phi (-i) j k ∧
    rhsTemp3 dx dy dz D L b (mirror T) (mirror cp) (mirror v) i j k = rhsTemp3 dx dy dz D L b T cp v (-i) j k := by
  have h1 : -(i + 1) = -i - 1 := by ring
  have h2 : -(i - 1) = -i + 1 := by ring
  constructor
  · cases kind
    · simp only [phaseRate3, mirror_div, addForce3]
      simp only [deltaTemperature3, mirror, h1, h2]
      rw [show T (-i + 1) j k + T (-i) (j - 1) k + T (-i - 1) j k + T (-i) (j + 1) k
        = T (-i - 1) j k + T (-i) (j - 1) k + T (-i + 1) j k + T (-i) (j + 1) k by ring]
    · simp only [phaseRate3, mirror_div, addForce3, mirror]
  · have : laplacian3 dx dy dz D (mirror T) i j k = laplacian3 dx dy dz D T (-i) j k := by
      simp only [laplacian3, mirror, h1, h2]
      ring
    simp only [rhsTemp3, this, mirror]

/-! ### Examples -/

/-- A temperature with a hot cell on an interface: 3D and 2D give different rates. -/
example : derivInterpFunc 'l' ((fun _ _ => 1 / 2 : Field2) 0 0) = some 1 ∧
    bend (fun i j => if i = 0 ∧ j = 0 then 1 else 0) 0 0 = -4 := by
  refine ⟨slope_linear _, ?_⟩
  simp [bend]

end AMPE.MeltFlow.Props
