import Verif.Props.AlloyFlow3
import Verif.Props.AlloyFlowKKS

/-!
# C119 on samples that do not depend on z: the 3D program does what the 2D program does

With that the counterexample of C110 (default form of the flux) is one in three dimensions, and the run given there is a run here.
-/

namespace AMPE.AlloyFlow3.Props

open AMPE.Functions AMPE.Functions.Props AMPE.Flux AMPE.PhaseRHS AMPE.PhaseRHS.Props AMPE.Alloy AMPE.DiffCoeff AMPE.DiffCoeff.Props
  AMPE.Coupling AMPE.AlloyFlow AMPE.AlloyFlow3
open AMPE.AlloyFlow.Props (Convex fraction parabolas parabolas_convex run_liquid c110_violation_kks)
open AMPE.ConservedFlow.Props (total)
open AMPE.QuatFlow3 (Cell mv)
open AMPE.QuatFlow3.Props (Per3 cellSum3)

/-- A 2D field stacked along z. -/
def col (u : Field2) : Cell → ℝ := fun p => u p.1 p.2.1

/-- Fluxes of a stack: those of the layer, none along z. -/
def colFlux (f0 f1 : Field2) : Fin 3 → Cell → ℝ := ![col f0, col f1, fun _ => 0]

theorem col_periodic {N M L : ℕ} {u : Field2} (h : Periodic2 N M u) : Per3 ![N, M, L] (col u) := by
  intro d p
  obtain ⟨i, j, k⟩ := p
  fin_cases d
  · simpa [col, mv] using h.1 i j
  · simpa [col, mv] using h.2 i j
  · simp [col, mv]

/-- **C119**, stacks: phase rates are those of the layer. -/
theorem c119_columns_phase (kind : Kind) (ty : Char) (E : Energies) (eps scale dx dy dz vmL vmA : ℝ) (mob phi cl ca : Field2) (p : Cell) :
    phaseRate kind ty E eps scale ![dx, dy, dz] vmL vmA (col mob) (col phi) (col cl) (col ca) p =
      AlloyFlow.phaseRate2 kind ty E eps scale dx dy vmL vmA mob phi cl ca p.1 p.2.1 := by
  obtain ⟨i, j, k⟩ := p
  have e : phaseDiv eps ![dx, dy, dz] (col phi) (i, j, k) = div2 dx dy (gradFluxX eps dx phi) (gradFluxY eps dy phi) i j := by
    simp [phaseDiv, div3, div2, gradFlux3X, gradFlux3Y, gradFlux3Z, gradFluxX, gradFluxY, f3, col]
  simp only [phaseRate, AlloyFlow.phaseRate2, e, col]

/-- **C119**, stacks: rates of the composition. -/
theorem c119_columns_solute (dx dy dz m : ℝ) (f0 f1 : Field2) (p : Cell) :
    soluteRate ![dx, dy, dz] m (colFlux f0 f1) p = rhs2 dx dy m f0 f1 p.1 p.2.1 := by
  obtain ⟨i, j, k⟩ := p
  simp [soluteRate, rhs3, rhs2, colFlux, f3, col]

/-- **C119**, stacks: fluxes of the phase-gradient form.  Across a z side nothing flows. -/
theorem c119_columns_kks (it at_ : Char) (hit : it ∈ proper) (hat : at_ = 'a' ∨ at_ = 'h') (R : ℝ) (l s : Arrhenius) (dx dy dz : ℝ)
    (temp phi cl ca c f0 f1 : Field2) (hu : Coupling.Props.Unit phi)
    (h0 : ∀ i j, kksFluxX it at_ R l s dx temp phi cl ca c i j = some (f0 i j))
    (h1 : ∀ i j, kksFluxY it at_ R l s dy temp phi cl ca c i j = some (f1 i j)) (d : Fin 3) (p : Cell) :
    kks it at_ R l s ![dx, dy, dz] (col temp) (col phi) (col cl) (col ca) (col c) d p = some (colFlux f0 f1 d p) := by
  obtain ⟨i, j, k⟩ := p
  fin_cases d
  · rw [show (colFlux f0 f1 ⟨0, by omega⟩ (i, j, k)) = f0 i j from rfl, ← h0 i j]
    simp only [kks, kksFluxX, Option.bind_eq_bind]
    simp [Option.map_eq_bind, concentrationFlux, concentrationFluxX, sides, X, mv, col, Function.comp_def, ← sub_eq_add_neg]
  · rw [show (colFlux f0 f1 ⟨1, by omega⟩ (i, j, k)) = f1 i j from rfl, ← h1 i j]
    simp only [kks, kksFluxY, Option.bind_eq_bind]
    simp [Option.map_eq_bind, concentrationFlux, concentrationFluxY, sides, Y, mv, col, Function.comp_def, ← sub_eq_add_neg]
  · obtain ⟨v, x, hv, hh, -, -⟩ := face_weight it at_ hit hat (phi i j, phi i j) ⟨hu i j, hu i j⟩
    have hd : ∃ y, derivInterpFunc it v = some y := by
      refine Option.isSome_iff_exists.1 ?_
      fin_cases hit <;> simp [derivInterpFunc] <;> split_ifs <;> rfl
    obtain ⟨y, hy⟩ := hd
    simp [kks, kksDiff, twoPhase, kksCoef, sides, mv, col, hv, hh, hy, concentrationFlux, colFlux]

/-- **C119**, stacks: the energy is that of the layer times the number of layers. -/
theorem c119_columns_energy (ty : Char) (hty : ty ∈ clamped) (E : Energies) (eps scale dx dy dz vmL vmA w : ℝ) (N M L : ℕ) (lo : Cell)
    (phi cl ca : Field2) (e : ℝ)
    (h : AlloyFlow.energy ty E eps scale dx dy vmL vmA w lo.1 (lo.1 + N - 1) lo.2.1 (lo.2.1 + M - 1) phi cl ca = some e) :
    energy ty E eps scale ![dx, dy, dz] vmL vmA w ![N, M, L] lo (col phi) (col cl) (col ca) = some (L * e) := by
  obtain ⟨H, hH, _⟩ := fraction ty hty
  rw [AlloyFlow.Props.energy_some ty E eps scale dx dy vmL vmA w N M lo.1 lo.2.1 phi cl ca hH] at h
  rw [energy_some ty E eps scale _ vmL vmA w _ lo (col phi) (col cl) (col ca) hH, ← Option.some.inj h, Option.some.injEq]
  have hi : ∀ i j k, interfaceCell3 eps dx dy dz (f3 (col phi)) i j k = interfaceCell eps dx dy phi i j := fun i j k => by
    simp only [interfaceCell3, interfaceCell, f3, col]; ring
  simp only [S3, cellSum3, Matrix.cons_val_zero, Matrix.cons_val_one, Matrix.cons_val, hi, f3, col, Finset.sum_const, Finset.card_range,
    nsmul_eq_mul, total, mul_add]

/-- **C119**, stacks: if the layer moves as the 2D program says then the stack moves as the 3D program says. -/
theorem c119_columns_follow (kind : Kind) (ty : Char) (E : Energies) (eps scale dx dy dz vmL vmA m : ℝ) (mob f0 f1 : Field2)
    (phi c : ℝ → Field2) (cl ca : Field2) (t : ℝ) (h : AlloyFlow.Props.Follows kind ty E eps scale dx dy vmL vmA m mob f0 f1 phi c cl ca t) :
    Follows kind ty E eps scale ![dx, dy, dz] vmL vmA m (col mob) (colFlux f0 f1) (fun s => col (phi s)) (fun s => col (c s)) (col cl)
      (col ca) t := by
  obtain ⟨v, h1, h2, h3⟩ := h
  exact ⟨col v, fun p => h1 _ _, fun p => (c119_columns_phase ..).trans (h2 _ _), fun p => by
    rw [c119_columns_solute]; exact h3 _ _⟩

/-- **C119 is violated by the default form of the flux**: the counterexample of C110, stacked. -/
theorem c119_violation_kks (kind : Kind) (n M L : ℕ) (hn : 0 < n) (hM : 0 < M) (hL : 0 < L) (lo : Cell) (A a b eps scale dx dy dz vm m w mb R T : ℝ)
    (hA : 0 < A) (hab : a ≠ b) (hvm : 0 < vm) (hx : 0 < dx) (hm : 0 < m) (hw : 0 < w) (hmb : 0 ≤ mb) :
    ∃ d > 0, ∃ (phi c cl ca : ℝ → Cell → ℝ) (f : Fin 3 → Cell → ℝ), Unit (phi 0) ∧ (∀ s, Per3 ![2 * n, M, L] (phi s)) ∧
      (∀ s, Per3 ![2 * n, M, L] (c s)) ∧ (∀ s, Split 'p' (parabolas A a b) (phi s) (c s) (cl s) (ca s)) ∧
      (∀ e p, kks 'p' 'a' R ⟨d, 0⟩ ⟨d, 0⟩ ![dx, dy, dz] (fun _ => T) (phi 0) (cl 0) (ca 0) (c 0) e p = some (f e p)) ∧
      Follows kind 'p' (parabolas A a b) eps scale ![dx, dy, dz] vm vm m (fun _ => mb) f phi c (cl 0) (ca 0) 0 ∧
      ∀ En : ℝ → ℝ, (∀ s, energy 'p' (parabolas A a b) eps scale ![dx, dy, dz] vm vm w ![2 * n, M, L] lo (phi s) (cl s) (ca s) = some (En s)) →
        ∃ e > 0, HasDerivAt En e 0 := by
  obtain ⟨d, d0, phi, c, cl, ca, f0, f1, hu, pp, pc, hs, k0, k1, hf, hE⟩ := c110_violation_kks kind n M hn hM lo.1 lo.2.1 A a b eps scale dx dy
    vm m w mb R T hA hab hvm hx hm hw hmb
  refine ⟨d, d0, fun s => col (phi s), fun s => col (c s), fun s => col (cl s), fun s => col (ca s), colFlux f0 f1, fun p => hu _ _,
    fun s => col_periodic (pp s), fun s => col_periodic (pc s), fun s p => hs s _ _, fun e p => ?_,
    c119_columns_follow kind 'p' _ eps scale dx dy dz vm vm m (fun _ _ => mb) f0 f1 phi c (cl 0) (ca 0) 0 hf, fun En hEn => ?_⟩
  · exact c119_columns_kks 'p' 'a' (by simp [proper]) (Or.inl rfl) R ⟨d, 0⟩ ⟨d, 0⟩ dx dy dz (fun _ _ => T) (phi 0) (cl 0) (ca 0) (c 0) f0 f1 hu
      k0 k1 e p
  · obtain ⟨H, hH, _⟩ := fraction 'p' (by simp [clamped])
    obtain ⟨e, he, hd⟩ := hE _ fun s => AlloyFlow.Props.energy_some 'p' (parabolas A a b) eps scale dx dy vm vm w (2 * n) M lo.1 lo.2.1 (phi s)
      (cl s) (ca s) hH
    refine ⟨L * e, by have : (0 : ℝ) < L := by exact_mod_cast hL
                      positivity, (hd.const_mul (L : ℝ)).congr_of_eventuallyEq (Filter.Eventually.of_forall fun s => ?_)⟩
    exact Option.some.inj ((hEn s).symm.trans (c119_columns_energy 'p' (by simp [clamped]) _ eps scale dx dy dz vm vm w (2 * n) M L lo (phi s)
      (cl s) (ca s) _ (AlloyFlow.Props.energy_some 'p' (parabolas A a b) eps scale dx dy vm vm w (2 * n) M lo.1 lo.2.1 (phi s)
      (cl s) (ca s) hH)))

/-- **C119**, stacks: a run of the 2D program, stacked, is a run of the 3D program. -/
theorem c119_columns_run (kind : Kind) (ty it at_ : Char) (hit : it ∈ proper) (hat : at_ = 'a' ∨ at_ = 'h') (E : Energies)
    (eps scale dx dy dz vm m R T : ℝ) (l s : Arrhenius) (hl : 0 ≤ l.d0) (hsd : 0 ≤ s.d0) (N M L : ℕ)
    (mob phi c cl ca : ℝ → Field2) (h : AlloyFlow.Props.Run kind ty it at_ E eps scale dx dy vm m R T l s N M mob phi c cl ca) :
    Run kind ty it at_ E eps scale ![dx, dy, dz] vm m R T l s ![N, M, L] (fun t => col (mob t)) (fun t => col (phi t)) (fun t => col (c t))
      (fun t => col (cl t)) (fun t => col (ca t)) := by
  refine ⟨fun t => col_periodic (h.perPhi t), fun t => col_periodic (h.perC t), fun t => ⟨(h.sloped t).1, fun e p => (h.sloped t).2 e _ _⟩,
    fun t p => h.unit t _ _, fun t p => h.split t _ _, fun t => ?_⟩
  obtain ⟨dl0, da0, dl1, da1, ⟨hx, hy⟩, hf⟩ := h.moves t
  have hz : ∀ i j, ∃ q, twoPhase it at_ R l s (phi t i j, phi t i j) (T, T) = some q := fun i j => by
    obtain ⟨a, b, e, _⟩ := c60_between it at_ hit hat R l s hl hsd (phi t i j, phi t i j) (T, T) ⟨h.unit t i j, h.unit t i j⟩
    exact ⟨_, e⟩
  choose q hq using hz
  refine ⟨![col dl0, col dl1, col fun i j => (q i j).1], ![col da0, col da1, col fun i j => (q i j).2], fun d p => ?_, ?_⟩
  · obtain ⟨i, j, k⟩ := p
    fin_cases d
    · exact hx i j
    · exact hy i j
    · exact hq i j
  · have := c119_columns_follow kind ty E eps scale dx dy dz vm vm m (mob t) _ _ phi c (cl t) (ca t) t hf
    have e : ebs ![dx, dy, dz] ![col dl0, col dl1, col fun i j => (q i j).1] ![col da0, col da1, col fun i j => (q i j).2] (col (cl t))
        (col (ca t)) = colFlux (ebsX dx dl0 da0 (cl t) (ca t)) (ebsY dy dl1 da1 (cl t) (ca t)) := by
      funext d p
      obtain ⟨i, j, k⟩ := p
      rw [ebs_value]
      fin_cases d
      · simp [colFlux, col, mv, AlloyFlow.Props.ebsX_value, ← sub_eq_add_neg]
      · simp [colFlux, col, mv, AlloyFlow.Props.ebsY_value, ← sub_eq_add_neg]
      · simp [colFlux, col, mv]
    rw [e]
    exact this

/-- The hypotheses of the decay theorems are met by a run that changes: stacked stripes of composition evening out in a liquid. -/
example : ∃ phi c cl ca : ℝ → Cell → ℝ, c 0 (0, 0, 0) ≠ c 0 (1, 0, 0) ∧ ∀ En : ℝ → ℝ,
    (∀ t, energy 'p' (parabolas 1 0 1) 1 1 ![1, 1, 1] 1 1 1 ![2 * 4, 8, 8] (0, 0, 0) (phi t) (cl t) (ca t) = some (En t)) → Antitone En := by
  obtain ⟨phi, c, cl, ca, ⟨h0, h1⟩, h⟩ := run_liquid .quadratic 1 0 1 1 1 1 1 1 1 1 4 8
  refine ⟨_, fun t => col (c t), _, _, ?_, fun En hEn =>
    c119_monotone_partial .quadratic 'p' 'p' 'a' (parabolas 1 0 1) (parabolas_convex one_pos 0 1) 1 1 ![1, 1, 1] 1 1 1 1 1 ⟨1, 0⟩ ⟨1, 0⟩
      ![2 * 4, 8, 8] (0, 0, 0) _ _ _ _ _ ⟨by simp [proper], Or.inl rfl, fun d => ?_, one_pos, zero_le_one, zero_le_one, zero_le_one,
        fun _ _ => zero_le_one⟩ zero_le_one
      (c119_columns_run .quadratic 'p' 'p' 'a' (by simp [proper]) (Or.inl rfl) (parabolas 1 0 1) 1 1 1 1 1 1 1 1 1 ⟨1, 0⟩ ⟨1, 0⟩ zero_le_one
        zero_le_one (2 * 4) 8 8 (fun _ _ _ => 1) phi c cl ca h) En hEn⟩
  · simp only [col]; rw [h0, h1]; norm_num
  · fin_cases d <;> norm_num

end AMPE.AlloyFlow3.Props
