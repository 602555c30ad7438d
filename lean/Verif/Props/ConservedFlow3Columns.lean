import Verif.Props.ConservedFlow3
import Verif.Props.AlloyFlow3Columns
import Mathlib.Analysis.SpecialFunctions.ExpDeriv
import Mathlib.Analysis.SpecialFunctions.Sqrt

/-!
# C120: stacks of a layer, and runs that move
-/

namespace AMPE.ConservedFlow3.Props

open AMPE.Functions AMPE.Functions.Props AMPE.Flux AMPE.PhaseRHS AMPE.PhaseRHS.Props AMPE.DiffCoeff AMPE.DiffCoeff.Props AMPE.Interface
  AMPE.AlloyFlow3 AMPE.ConservedFlow3
open AMPE.AlloyFlow3.Props (col col_periodic)
open AMPE.QuatFlow3 (Cell mv)
open AMPE.QuatFlow3.Props (Per3 cellSum3)

theorem col_lap (dx dy dz : ℝ) (u : Field2) (p : Cell) : lap3 ![dx, dy, dz] (col u) p = lap2 dx dy u p.1 p.2.1 := by
  obtain ⟨i, j, k⟩ := p
  simp only [lap3, lap2, Fin.sum_univ_three, mv, col, ← sub_eq_add_neg, Matrix.cons_val_zero, Matrix.cons_val_one, Matrix.cons_val]
  ring

theorem col_div (dx dy dz : ℝ) (w : Fin 3 → Cell → ℝ) (d0 d1 mu : Field2) (h0 : w 0 = col d0) (h1 : w 1 = col d1) (p : Cell) :
    div ![dx, dy, dz] w (col mu) p = (d0 (p.1 + 1) p.2.1 * ((mu (p.1 + 1) p.2.1 - mu p.1 p.2.1) / dx)
      - d0 p.1 p.2.1 * ((mu p.1 p.2.1 - mu (p.1 - 1) p.2.1) / dx)) / dx
      + (d1 p.1 (p.2.1 + 1) * ((mu p.1 (p.2.1 + 1) - mu p.1 p.2.1) / dy) - d1 p.1 p.2.1 * ((mu p.1 p.2.1 - mu p.1 (p.2.1 - 1)) / dy)) / dy := by
  obtain ⟨i, j, k⟩ := p
  simp [div, slope, Fin.sum_univ_three, mv, col, h0, h1, ← sub_eq_add_neg]

/-- **C120**, stacks: the Cahn-Hilliard rate of a stack of equal layers is the rate of the layer. -/
theorem c120_columns_ch (lo hi : Cell) (dx dy dz m ca cb w kappa : ℝ) (c : Field2) (p : Cell) (hp : Inside lo hi p) :
    chRate3 lo hi ![dx, dy, dz] m ca cb w kappa (col c) p =
      ConservedFlow.chRate lo.1 hi.1 lo.2.1 hi.2.1 dx dy m ca cb w kappa c p.1 p.2.1 := by
  have em : muCH3 ca cb w kappa ![dx, dy, dz] (col c) = col (muCH ca cb w kappa dx dy c) := by
    funext q
    simp only [muCH3, col_lap]
    rfl
  rw [ConservedFlow.chRate]
  refine (rate_eq lo hi _ m 1 (fun _ _ => 1) _ p hp).trans ?_
  rw [ConservedFlow.Props.rate_eq _ _ _ _ _ _ _ _ _ _ _ _ _ ⟨hp.1.1, hp.1.2, hp.2.1.1, hp.2.1.2⟩, em,
    col_div dx dy dz (fun _ _ => 1) (fun _ _ => 1) (fun _ _ => 1) _ rfl rfl]

/-- **C120**, stacks: likewise the composition rate of the sintering model, whatever the coefficients on the z sides. -/
theorem c120_columns_sinter (lo hi : Cell) (dx dy dz m a b beta : ℝ) (w : Fin 3 → Cell → ℝ) (d0 d1 : Field2) (h0 : w 0 = col d0)
    (h1 : w 1 = col d1) (n : ℕ) (c : Field2) (phi : ℕ → Field2) (p : Cell) (hp : Inside lo hi p) :
    sinterConcRate3 lo hi ![dx, dy, dz] m a b beta w n (col c) (fun k => col (phi (k.val + 1))) p =
      ConservedFlow.sinterConcRate lo.1 hi.1 lo.2.1 hi.2.1 dx dy m a b beta d0 d1 n c phi p.1 p.2.1 := by
  have em : muWang3 a b beta ![dx, dy, dz] n (col c) (fun k => col (phi (k.val + 1))) = col (muWang a b beta dx dy n c phi) := by
    funext q
    simp only [muWang3, col_lap, col, muWang]
    rw [icc_sum n fun i => phi i q.1 q.2.1 * phi i q.1 q.2.1, icc_sum n fun i => phi i q.1 q.2.1 * phi i q.1 q.2.1 * phi i q.1 q.2.1]
  rw [ConservedFlow.sinterConcRate]
  refine (rate_eq lo hi _ m m w _ p hp).trans ?_
  rw [ConservedFlow.Props.rate_eq _ _ _ _ _ _ _ _ _ _ _ _ _ ⟨hp.1.1, hp.1.2, hp.2.1.1, hp.2.1.2⟩, em, col_div dx dy dz w d0 d1 _ h0 h1]

/-- **C120**, stacks: and the rates of its order parameters. -/
theorem c120_columns_phase (n : ℕ) (eps b dx dy dz : ℝ) (mob c : Field2) (phi : ℕ → Field2) (k : Fin n) (p : Cell) :
    sinterPhaseRate3 n eps b ![dx, dy, dz] (col mob) (col c) (fun k => col (phi (k.val + 1))) k p =
      ConservedFlow.sinterPhaseRate n eps b dx dy mob c phi k p.1 p.2.1 := by
  have e : ∀ (e : ℝ) (u : Field2), phaseDiv e ![dx, dy, dz] (col u) p = e ^ 2 * lap2 dx dy u p.1 p.2.1 := fun e u => by
    rw [phaseDiv_lap, col_lap]
  simp only [sinterPhaseRate3, e, ConservedFlow.sinterPhaseRate, sinterRate, col]
  congr 2
  funext k
  simp only [fluxDiv, div2, gradFluxX, gradFluxY, lap2, add_sub_cancel_right, Bool.false_eq_true, if_false]
  ring

theorem col_total (N M L : ℕ) (lo : Cell) (F : Field2) :
    cellSum3 ![N, M, L] lo (col F) = L * ConservedFlow.Props.total N M lo.1 lo.2.1 F := by
  simp only [cellSum3, col, Matrix.cons_val_zero, Matrix.cons_val_one, Matrix.cons_val, Finset.sum_const, Finset.card_range, nsmul_eq_mul,
    ConservedFlow.Props.total]

theorem col_faceSq (dx dy dz : ℝ) (u : Field2) :
    faceSq3 ![dx, dy, dz] (fun _ _ => 1) (col u) = col (ConservedFlow.Props.faceSq dx dy (fun _ _ => 1) (fun _ _ => 1) u) := by
  funext ⟨i, j, k⟩
  simp [faceSq3, slope, Fin.sum_univ_three, mv, col, ConservedFlow.Props.faceSq, ← sub_eq_add_neg]

/-- **C120**, stacks: the free energies are those of the layer times the number of layers. -/
theorem c120_columns_energy (N M L : ℕ) (lo : Cell) (dx dy dz ca cb w A B beta kappa : ℝ) (n : ℕ) (c : Field2) (phi : ℕ → Field2) :
    chEnergy3 ![N, M, L] lo ![dx, dy, dz] ca cb w kappa (col c) = L * ConservedFlow.Props.chEnergy N M lo.1 lo.2.1 dx dy ca cb w kappa c ∧
    sinterEnergy3 ![N, M, L] lo ![dx, dy, dz] A B beta kappa n (col c) (fun k => col (phi (k.val + 1))) =
      L * ConservedFlow.Props.sinterEnergy N M lo.1 lo.2.1 dx dy A B beta kappa n c phi := by
  constructor
  · rw [chEnergy3, col_faceSq, col_total, show (fun p => w * (col c p - ca) ^ 2 * (cb - col c p) ^ 2) =
      col (fun i j => w * (c i j - ca) ^ 2 * (cb - c i j) ^ 2) from rfl, col_total, ConservedFlow.Props.chEnergy]
    ring
  · simp only [sinterEnergy3, col_faceSq, col_total]
    rw [show (fun p => wangEnergy n A B (col c p) fun k => col (phi (k.val + 1)) p) =
      col (fun i j => wangEnergy n A B (c i j) (fun k => phi (k.val + 1) i j)) from rfl, col_total, ConservedFlow.Props.sinterEnergy,
      ← Finset.mul_sum]
    ring

/-! ## Runs that move -/

/-- A composition alternating in the first direction. -/
noncomputable def alt (y : ℝ) : Cell → ℝ := fun p => 1 / 2 + if p.1 % 2 = 0 then y else -y

theorem alt_step (y : ℝ) (p : Cell) : alt y (mv 0 1 p) = 1 - alt y p ∧ alt y (mv 0 (-1) p) = 1 - alt y p := by
  obtain ⟨i, j, k⟩ := p
  rcases Int.emod_two_eq_zero_or_one i with e | e
  · have e1 : (i + 1) % 2 ≠ 0 := by omega
    have e2 : (i + -1) % 2 ≠ 0 := by omega
    change 1 / 2 + (if (i + 1) % 2 = 0 then y else -y) = 1 - (1 / 2 + if i % 2 = 0 then y else -y) ∧
      1 / 2 + (if (i + -1) % 2 = 0 then y else -y) = 1 - (1 / 2 + if i % 2 = 0 then y else -y)
    rw [if_neg e1, if_neg e2, if_pos e]
    constructor <;> ring
  · have e1 : (i + 1) % 2 = 0 := by omega
    have e2 : (i + -1) % 2 = 0 := by omega
    change 1 / 2 + (if (i + 1) % 2 = 0 then y else -y) = 1 - (1 / 2 + if i % 2 = 0 then y else -y) ∧
      1 / 2 + (if (i + -1) % 2 = 0 then y else -y) = 1 - (1 / 2 + if i % 2 = 0 then y else -y)
    rw [if_pos e1, if_pos e2, if_neg (by omega)]
    constructor <;> ring

theorem alt_side (y : ℝ) (d : Fin 3) (hd : d ≠ 0) (a : ℤ) (p : Cell) : alt y (mv d a p) = alt y p := by
  obtain ⟨i, j, k⟩ := p
  fin_cases d
  · exact absurd rfl hd
  · rfl
  · rfl

theorem alt_periodic (y : ℝ) : Per3 ![2, 1, 1] (alt y) := by
  intro d p
  obtain ⟨i, j, k⟩ := p
  fin_cases d
  · simp [alt, mv]
  · rfl
  · rfl

theorem alt_lap (y : ℝ) (p : Cell) : lap3 (fun _ => 1) (alt y) p = 2 - 4 * alt y p := by
  rw [lap3, Fin.sum_univ_three, (alt_step y p).1, (alt_step y p).2, alt_side y 1 (by decide), alt_side y 1 (by decide), alt_side y 2 (by decide),
    alt_side y 2 (by decide)]
  ring

/-- Separation of a mixture: `y' = y - 8 y³`. -/
noncomputable def sep (t : ℝ) : ℝ := 1 / Real.sqrt (8 + Real.exp (-2 * t))

theorem sep_deriv (t : ℝ) : HasDerivAt sep (sep t - 8 * sep t ^ 3) t := by
  have hp : (0 : ℝ) < 8 + Real.exp (-2 * t) := by positivity
  have h1 : HasDerivAt (fun s => 8 + Real.exp (-2 * s)) (Real.exp (-2 * t) * (-2)) t :=
    ((((hasDerivAt_id' t).const_mul (-2)).congr_deriv (mul_one _)).exp).const_add 8
  have h2 := (h1.sqrt hp.ne').inv (Real.sqrt_ne_zero'.2 hp)
  have h3 : HasDerivAt sep _ t := h2.congr_of_eventuallyEq (Filter.Eventually.of_forall fun s => by simp [sep])
  refine h3.congr_deriv ?_
  have sq : Real.sqrt (8 + Real.exp (-2 * t)) ^ 2 = 8 + Real.exp (-2 * t) := Real.sq_sqrt hp.le
  have ex : Real.exp (-2 * t) = Real.sqrt (8 + Real.exp (-2 * t)) ^ 2 - 8 := by rw [sq]; ring
  simp only [sep]
  have hs := Real.sqrt_ne_zero'.2 hp
  generalize Real.sqrt (8 + Real.exp (-2 * t)) = S at *
  rw [ex]
  field_simp

theorem alt_deriv (t : ℝ) (p : Cell) :
    HasDerivAt (fun s => alt (sep s) p) ((alt (sep t) p - 1 / 2) - 8 * (alt (sep t) p - 1 / 2) ^ 3) t := by
  unfold alt
  split_ifs
  · exact ((sep_deriv t).const_add (1 / 2)).congr_deriv (by ring)
  · exact ((sep_deriv t).neg.const_add (1 / 2)).congr_deriv (by ring)

theorem alt_div (F : ℝ → ℝ) (k y : ℝ) (hF : ∀ z, F (1 - z) = 2 * k - F z) (p : Cell) :
    div (fun _ => 1) (fun _ _ => 1) (fun q => F (alt y q)) p = 4 * (k - F (alt y p)) := by
  simp only [div, slope, Fin.sum_univ_three, AMPE.QuatFlow3.Props.mv_down_up, (alt_step y p).1, (alt_step y p).2, alt_side y 1 (by decide),
    alt_side y 2 (by decide), hF]
  ring

/-- Runs of the Cahn-Hilliard model that move exist: here a mixture separates. -/
example : ChRun ![2, 1, 1] (fun _ => 1) (1 / 4) 0 1 2 (1 / 4) (fun t => alt (sep t)) ∧ alt (sep 0) ≠ alt (sep 1) := by
  refine ⟨⟨fun t => alt_periodic _, fun t => ⟨_, alt_deriv t, fun p => ⟨p, p, ⟨⟨le_refl _, le_refl _⟩, ⟨le_refl _, le_refl _⟩, le_refl _, le_refl _⟩, ?_⟩⟩⟩, fun h => ?_⟩
  · refine Eq.symm ((rate_eq p p _ _ 1 (fun _ _ => 1) _ p ⟨⟨le_refl _, le_refl _⟩, ⟨le_refl _, le_refl _⟩, le_refl _, le_refl _⟩).trans ?_)
    have em : muCH3 0 1 2 (1 / 4) (fun _ => 1) (alt (sep t)) =
        fun q => (fun z : ℝ => 4 * z * (1 - z) * (1 - 2 * z) - 1 / 4 * (2 - 4 * z)) (alt (sep t) q) := by
      funext q; simp only [muCH3, alt_lap]; ring
    rw [em, alt_div (fun z : ℝ => 4 * z * (1 - z) * (1 - 2 * z) - 1 / 4 * (2 - 4 * z)) 0 (sep t) (fun z => by ring) p]
    ring
  · have := congrFun h (0, 0, 0)
    simp only [alt, sep, Int.zero_emod, if_true, add_right_inj, one_div, inv_inj] at this
    rw [Real.sqrt_inj (by positivity) (by positivity)] at this
    have := Real.exp_injective (add_left_cancel this)
    norm_num at this

/-- Likewise of the sintering model, with two order parameters. -/
example : SinterRun ![2, 1, 1] (fun _ => 1) 'p' 'a' (1 / 2) 2 (1 / 4) (1 / 8) 1 1 1 0 0 2 (fun _ _ => 1) (fun t => alt (sep t))
    (fun _ _ _ => 0) := by
  refine ⟨fun t => alt_periodic _, fun _ _ _ _ => rfl, fun t => ⟨fun _ _ => 1, _, ?_, alt_deriv t, fun p => ⟨p, p, ⟨⟨le_refl _, le_refl _⟩, ⟨le_refl _, le_refl _⟩, le_refl _, le_refl _⟩, ?_⟩, fun k p => ?_⟩⟩
  · intro d p
    simp [scalar, avgP, averageFunc, interpFunc]
  · refine Eq.symm ((rate_eq p p _ _ (1 / 2) _ _ p ⟨⟨le_refl _, le_refl _⟩, ⟨le_refl _, le_refl _⟩, le_refl _, le_refl _⟩).trans ?_)
    have em : muWang3 2 (1 / 4) (1 / 8) (fun _ => 1) 2 (alt (sep t)) (fun _ _ => 0) =
        fun q => (fun z : ℝ => 4 * z * (1 - z) * (1 - 2 * z) + 1 / 2 * z - 1 / 8 * (2 - 4 * z)) (alt (sep t) q) := by
      funext q; simp only [muWang3, alt_lap]; simp; ring
    have es : div (fun _ => 1) (sinterCoef3 p p 0 0 2 (alt (sep t)) (fun _ _ => 0) fun _ _ => 1)
        (fun q => (fun z : ℝ => 4 * z * (1 - z) * (1 - 2 * z) + 1 / 2 * z - 1 / 8 * (2 - 4 * z)) (alt (sep t) q)) p =
        div (fun _ => 1) (fun _ _ => 1)
          (fun q => (fun z : ℝ => 4 * z * (1 - z) * (1 - 2 * z) + 1 / 2 * z - 1 / 8 * (2 - 4 * z)) (alt (sep t) q)) p := by
      have one : ∀ d q, sideCoef 0 0 2 (alt (sep t)) (fun _ _ => 0) (fun _ _ => 1) d q = 1 := fun d q => by
        simp [sideCoef, cellD3, dSingle, dAB]
      refine Finset.sum_congr rfl fun d _ => ?_
      obtain ⟨e1, e2⟩ := c120_coefficient p p 0 0 2 (alt (sep t)) (fun _ _ => 0) (fun _ _ => 1) d p ⟨⟨le_refl _, le_refl _⟩, ⟨le_refl _, le_refl _⟩, le_refl _, le_refl _⟩
      rw [e1, e2, one, one]
    rw [em, es, alt_div (fun z : ℝ => 4 * z * (1 - z) * (1 - 2 * z) + 1 / 2 * z - 1 / 8 * (2 - 4 * z)) (1 / 4) (sep t) (fun z => by ring) p]
    ring
  · refine (hasDerivAt_const t (0 : ℝ)).congr_deriv ?_
    simp [sinterPhaseRate3, wangRate, phaseDiv_lap, lap3]

end AMPE.ConservedFlow3.Props
