import Verif.Model.Coupling
import Verif.Props.DiffCoeff
import Mathlib.Tactic.LinearCombination

/-!
# C96: solute flux written with the gradient of the phase

The composition of a cell is the mixture of the compositions of its phases.  The flux should be driven by the differences
of the *phase* compositions: where those are uniform, there is nothing to even out and nothing may move, whatever the
shape of the interface.
-/

namespace AMPE.Coupling.Props

open AMPE.Functions AMPE.Functions.Props AMPE.Flux AMPE.DiffCoeff AMPE.DiffCoeff.Props AMPE.Coupling

/-- Every cell is a mixture: fraction `g(phi)` of composition `ca`, the rest of composition `cl`. -/
def Mixture (g : ℝ → Option ℝ) (phi cl ca c : Field2) : Prop :=
  ∀ i j, ∃ h, g (phi i j) = some h ∧ c i j = (1 - h) * cl i j + h * ca i j

/-- The phase is between 0 (liquid) and 1 (solid). -/
def Unit (phi : Field2) : Prop := ∀ i j, 0 ≤ phi i j ∧ phi i j ≤ 1

/-- A phase transition from 1/4 in column 0 to 3/4 in column 1. -/
noncomputable def step : Field2 := fun i _ => if i ≤ 0 then 1 / 4 else 3 / 4

theorem step_unit : Unit step := by
  intro i j
  by_cases h : i ≤ 0 <;> simp only [step, h, if_true, if_false] <;> norm_num

theorem interp_l {x : ℝ} (h0 : 0 ≤ x) (h1 : x ≤ 1) : interpFunc 'l' x = some x := by
  have : min 1 (pos x) = x := by
    have : pos x = x := by simp [pos, h0]
    rw [this, min_eq_right h1]
  exact (computes_l x).trans (congrArg some this)

theorem clamp_id {x : ℝ} (h0 : 0 ≤ x) (h1 : x ≤ 1) : clamp x = x := by
  simp [clamp, h0, h1]

theorem interp_p {x : ℝ} (h0 : 0 ≤ x) (h1 : x ≤ 1) :
    interpFunc 'p' x = some (x * x * x * (10 - 15 * x + 6 * x * x)) := by
  simp [interpFunc, clamp_id h0 h1]

theorem interp_h {x : ℝ} (h0 : 0 ≤ x) (h1 : x ≤ 1) : interpFunc 'h' x = some (x * x * (3 - 2 * x)) := by
  simp [interpFunc, clamp_id h0 h1]

theorem deriv_l (x : ℝ) : derivInterpFunc 'l' x = some 1 := by
  have : x > 0 ∨ x < 1 := by
    rcases lt_or_ge x 1 with h | h
    · exact Or.inr h
    · exact Or.inl (by linarith)
  simp [derivInterpFunc, this]

theorem deriv_p {x : ℝ} (h0 : 0 ≤ x) (h1 : x ≤ 1) :
    derivInterpFunc 'p' x = some (30 * x * x * (1 - x) * (1 - x)) := by
  simp [derivInterpFunc, clamp_id h0 h1]

theorem deriv_h {x : ℝ} (h0 : 0 ≤ x) (h1 : x ≤ 1) : derivInterpFunc 'h' x = some (6 * x * (1 - x)) := by
  simp [derivInterpFunc, clamp_id h0 h1]

theorem avg_a (a b : ℝ) : averageFunc 'a' a b = some ((a + b) / 2) := by
  simp [averageFunc]; ring

/-! ## KKS form -/

/-- **C96**, KKS form with linear interpolation of phase and composition: on every face, whatever the averaging, the flux
is a positive combination of the two coefficients times the phase-weighted differences of the phase compositions. -/
theorem c96_kks_linear (at_ : Char) (hat : at_ = 'a' ∨ at_ = 'h') (R : ℝ) (l s : Arrhenius) (dx dy : ℝ)
    (temp phi cl ca c : Field2) (hu : Unit phi) (hm : Mixture (interpFunc 'l') phi cl ca c) (i j : ℤ) :
    (∃ w, 0 ≤ w ∧ w ≤ 1 ∧ kksFluxX 'l' at_ R l s dx temp phi cl ca c i j =
      some (1 / dx * ((1 - w) * rate R l (X temp i j) + w * rate R s (X temp i j)) *
        ((1 - (phi (i - 1) j + phi i j) / 2) * (cl i j - cl (i - 1) j)
          + (phi (i - 1) j + phi i j) / 2 * (ca i j - ca (i - 1) j)))) ∧
    (∃ w, 0 ≤ w ∧ w ≤ 1 ∧ kksFluxY 'l' at_ R l s dy temp phi cl ca c i j =
      some (1 / dy * ((1 - w) * rate R l (Y temp i j) + w * rate R s (Y temp i j)) *
        ((1 - (phi i (j - 1) + phi i j) / 2) * (cl i j - cl i (j - 1))
          + (phi i (j - 1) + phi i j) / 2 * (ca i j - ca i (j - 1))))) := by
  have hc : ∀ a b, c a b = (1 - phi a b) * cl a b + phi a b * ca a b := by
    intro a b
    obtain ⟨h, hh, e⟩ := hm a b
    rw [interp_l (hu a b).1 (hu a b).2] at hh
    rw [e, ← Option.some.inj hh]
  constructor
  · obtain ⟨v, h, hv, hh, h0, h1⟩ := face_weight 'l' at_ (by simp [proper]) hat (X phi i j)
      ⟨hu (i - 1) j, hu i j⟩
    have hv' : avgP at_ (X phi i j).swap = some v := by rw [avgP_swap]; exact hv
    refine ⟨h, h0, h1, ?_⟩
    simp only [kksFluxX, kksDiff, twoPhase, kksCoef, hv, hv', hh, deriv_l, Option.bind_eq_bind, Option.bind_some,
      Option.some.injEq, concentrationFluxX, hc]
    simp only [X, Prod.swap]
    ring
  · obtain ⟨v, h, hv, hh, h0, h1⟩ := face_weight 'l' at_ (by simp [proper]) hat (Y phi i j)
      ⟨hu i (j - 1), hu i j⟩
    have hv' : avgP at_ (Y phi i j).swap = some v := by rw [avgP_swap]; exact hv
    refine ⟨h, h0, h1, ?_⟩
    simp only [kksFluxY, kksDiff, twoPhase, kksCoef, hv, hv', hh, deriv_l, Option.bind_eq_bind, Option.bind_some,
      Option.some.injEq, concentrationFluxY, hc]
    simp only [Y, Prod.swap]
    ring

/-- **C96**: hence no flux where the phase compositions are uniform. -/
theorem c96_kks_uniform_linear (at_ : Char) (hat : at_ = 'a' ∨ at_ = 'h') (R : ℝ) (l s : Arrhenius) (dx dy : ℝ)
    (temp phi c : Field2) (L A : ℝ) (hu : Unit phi)
    (hm : Mixture (interpFunc 'l') phi (fun _ _ => L) (fun _ _ => A) c) (i j : ℤ) :
    kksFluxX 'l' at_ R l s dx temp phi (fun _ _ => L) (fun _ _ => A) c i j = some 0 ∧
      kksFluxY 'l' at_ R l s dy temp phi (fun _ _ => L) (fun _ _ => A) c i j = some 0 := by
  obtain ⟨⟨w, -, -, h⟩, ⟨w', -, -, h'⟩⟩ := c96_kks_linear at_ hat R l s dx dy temp phi _ _ c hu hm i j
  rw [h, h']
  constructor <;> congr 1 <;> ring

example : Unit step ∧ Mixture (interpFunc 'l') step (fun _ _ => 0.3) (fun _ _ => 0.1) (fun i j => 0.3 - 0.2 * step i j) :=
  ⟨step_unit, fun i j => ⟨step i j, interp_l (step_unit i j).1 (step_unit i j).2, by norm_num; ring⟩⟩

/-- What the KKS form computes on an x face with uniform phase compositions, arithmetic averaging, mixture `g`. -/
theorem kks_uniform (it : Char) (R : ℝ) (l s : Arrhenius) (dx : ℝ) (temp phi c : Field2) (L A : ℝ) (i j : ℤ)
    (h hp g1 g2 : ℝ) (hh : interpFunc it ((phi (i - 1) j + phi i j) / 2) = some h)
    (hhp : derivInterpFunc it ((phi (i - 1) j + phi i j) / 2) = some hp)
    (h1 : c (i - 1) j = (1 - g1) * L + g1 * A) (h2 : c i j = (1 - g2) * L + g2 * A) :
    kksFluxX it 'a' R l s dx temp phi (fun _ _ => L) (fun _ _ => A) c i j =
      some (1 / dx * ((1 - h) * rate R l (X temp i j) + h * rate R s (X temp i j)) *
        ((L - A) * (hp * (phi i j - phi (i - 1) j) - (g2 - g1)))) := by
  have hv : avgP 'a' (X phi i j) = some ((phi (i - 1) j + phi i j) / 2) := avg_a _ _
  have hv' : avgP 'a' (X phi i j).swap = some ((phi (i - 1) j + phi i j) / 2) := by rw [avgP_swap]; exact hv
  simp only [kksFluxX, kksDiff, twoPhase, kksCoef, hv, hv', hh, hhp, Option.bind_eq_bind, Option.bind_some,
    Option.some.injEq, concentrationFluxX, h1, h2]
  simp only [X, Prod.swap]
  ring

/-- **C96**, KKS form with the default (`p`) or the `h` interpolation for both phase and composition: with uniform phase
compositions what remains of the flux is of third order in the jump of the phase across the face.  Missing: it is not
zero. -/
theorem c96_kks_uniform_partial (R : ℝ) (l s : Arrhenius) (dx : ℝ) (temp phi c : Field2) (L A : ℝ) (hu : Unit phi)
    (it : Char) (hit : it = 'p' ∨ it = 'h')
    (hm : Mixture (interpFunc it) phi (fun _ _ => L) (fun _ _ => A) c) (i j : ℤ) :
    ∃ w r, 0 ≤ w ∧ w ≤ 1 ∧ |r| ≤ 7 / 2 * |phi i j - phi (i - 1) j| ^ 3 ∧
      kksFluxX it 'a' R l s dx temp phi (fun _ _ => L) (fun _ _ => A) c i j =
        some (1 / dx * ((1 - w) * rate R l (X temp i j) + w * rate R s (X temp i j)) * ((L - A) * r)) := by
  obtain ⟨a0, a1⟩ := hu (i - 1) j
  obtain ⟨b0, b1⟩ := hu i j
  have m0 : 0 ≤ (phi (i - 1) j + phi i j) / 2 := by linarith
  have m1 : (phi (i - 1) j + phi i j) / 2 ≤ 1 := by linarith
  obtain ⟨g1, hg1, e1⟩ := hm (i - 1) j
  obtain ⟨g2, hg2, e2⟩ := hm i j
  have bound : ∀ d k : ℝ, |k| ≤ 7 / 2 → |d ^ 3 * k| ≤ 7 / 2 * |d| ^ 3 := by
    intro d k hk
    rw [abs_mul, abs_pow, mul_comm]
    exact mul_le_mul_of_nonneg_right hk (by positivity)
  rcases hit with rfl | rfl
  · rw [interp_p a0 a1] at hg1
    rw [interp_p b0 b1] at hg2
    obtain ⟨w0, w1⟩ := c10_range 'p' (by simp [proper]) _ _ m0 m1 (interp_p m0 m1)
    refine ⟨_, _, w0, w1, ?_, kks_uniform 'p' R l s dx temp phi c L A i j _ _ g1 g2 (interp_p m0 m1) (deriv_p m0 m1)
      e1 e2⟩
    rw [← Option.some.inj hg1, ← Option.some.inj hg2]
    generalize phi (i - 1) j = a at *
    generalize phi i j = b at *
    have e : 30 * ((a + b) / 2) * ((a + b) / 2) * (1 - (a + b) / 2) * (1 - (a + b) / 2) * (b - a) -
        (b * b * b * (10 - 15 * b + 6 * b * b) - a * a * a * (10 - 15 * a + 6 * a * a)) =
        (b - a) ^ 3 * (-(15 * ((a + b) / 2) ^ 2 - 15 * ((a + b) / 2) + 5 / 2 + 3 / 8 * (b - a) ^ 2)) := by ring
    rw [e]
    apply bound
    rw [abs_neg, abs_le]
    have hd : (b - a) ^ 2 ≤ 1 := by nlinarith
    constructor <;> nlinarith [sq_nonneg ((a + b) / 2 - 1 / 2), sq_nonneg (b - a), mul_nonneg m0 (sub_nonneg.mpr m1)]
  · rw [interp_h a0 a1] at hg1
    rw [interp_h b0 b1] at hg2
    obtain ⟨w0, w1⟩ := c10_range 'h' (by simp [proper]) _ _ m0 m1 (interp_h m0 m1)
    refine ⟨_, _, w0, w1, ?_, kks_uniform 'h' R l s dx temp phi c L A i j _ _ g1 g2 (interp_h m0 m1) (deriv_h m0 m1)
      e1 e2⟩
    rw [← Option.some.inj hg1, ← Option.some.inj hg2]
    generalize phi (i - 1) j = a at *
    generalize phi i j = b at *
    have e : 6 * ((a + b) / 2) * (1 - (a + b) / 2) * (b - a) - (b * b * (3 - 2 * b) - a * a * (3 - 2 * a)) =
        (b - a) ^ 3 * (1 / 2) := by ring
    rw [e]
    apply bound
    rw [abs_le]; constructor <;> norm_num

/-- **C96 is violated** by the KKS form with `h` interpolation: with uniform, different phase compositions and positive
coefficients there is a flux on every x face across which the phase changes. -/
theorem c96_violation_kks_h (R : ℝ) (l s : Arrhenius) (hl : 0 < l.d0) (hs : 0 < s.d0) (dx : ℝ) (hdx : 0 < dx)
    (temp phi c : Field2) (L A : ℝ) (hLA : L ≠ A) (hu : Unit phi)
    (hm : Mixture (interpFunc 'h') phi (fun _ _ => L) (fun _ _ => A) c) (i j : ℤ) :
    kksFluxX 'h' 'a' R l s dx temp phi (fun _ _ => L) (fun _ _ => A) c i j = some 0 ↔ phi i j = phi (i - 1) j := by
  obtain ⟨a0, a1⟩ := hu (i - 1) j
  obtain ⟨b0, b1⟩ := hu i j
  have m0 : 0 ≤ (phi (i - 1) j + phi i j) / 2 := by linarith
  have m1 : (phi (i - 1) j + phi i j) / 2 ≤ 1 := by linarith
  obtain ⟨g1, hg1, e1⟩ := hm (i - 1) j
  obtain ⟨g2, hg2, e2⟩ := hm i j
  rw [interp_h a0 a1] at hg1
  rw [interp_h b0 b1] at hg2
  obtain ⟨w0, w1⟩ := c10_range 'h' (by simp [proper]) _ _ m0 m1 (interp_h m0 m1)
  rw [kks_uniform 'h' R l s dx temp phi c L A i j _ _ g1 g2 (interp_h m0 m1) (deriv_h m0 m1) e1 e2]
  rw [← Option.some.inj hg1, ← Option.some.inj hg2]
  have r1 : 0 < rate R l (X temp i j) := by unfold rate; positivity
  have r2 : 0 < rate R s (X temp i j) := by unfold rate; positivity
  generalize phi (i - 1) j = a at *
  generalize phi i j = b at *
  have e : 6 * ((a + b) / 2) * (1 - (a + b) / 2) * (b - a) - (b * b * (3 - 2 * b) - a * a * (3 - 2 * a)) =
      (b - a) ^ 3 * (1 / 2) := by ring
  rw [e]
  generalize (a + b) / 2 * ((a + b) / 2) * (3 - 2 * ((a + b) / 2)) = w at *
  have hD : 0 < (1 - w) * rate R l (X temp i j) + w * rate R s (X temp i j) := by
    rcases w0.eq_or_lt with g | g
    · rw [← g]; linarith
    · nlinarith [mul_pos g r2, mul_nonneg (sub_nonneg.mpr w1) r1.le]
  have hne : L - A ≠ 0 := sub_ne_zero.mpr hLA
  constructor
  · intro h
    have h' := Option.some.inj h
    have : (b - a) ^ 3 = 0 := by
      rcases mul_eq_zero.mp h' with h1 | h1
      · exact absurd h1 (by positivity)
      · rcases mul_eq_zero.mp h1 with h2 | h2
        · exact absurd h2 hne
        · linarith
    have := pow_eq_zero_iff (n := 3) (by norm_num) |>.mp this
    linarith
  · intro h
    rw [h]
    congr 1
    ring

/-- **C96 is violated** by the KKS form when the composition is interpolated linearly and the phase is not
(`conc_interp_func_type = "lin"` beside the default `phi_interp_func_type`): the coupling takes its derivative from the
energy interpolation, and with uniform phase compositions the flux is not even small: it is the jump of the phase times
`h'(phi) - 1`. -/
theorem c96_violation_kks_mixed (R : ℝ) (l s : Arrhenius) (dx : ℝ) (temp phi c : Field2) (L A : ℝ) (hu : Unit phi)
    (hm : Mixture (interpFunc 'l') phi (fun _ _ => L) (fun _ _ => A) c) (i j : ℤ) :
    ∃ w, 0 ≤ w ∧ w ≤ 1 ∧ kksFluxX 'p' 'a' R l s dx temp phi (fun _ _ => L) (fun _ _ => A) c i j =
      some (1 / dx * ((1 - w) * rate R l (X temp i j) + w * rate R s (X temp i j)) *
        ((L - A) * ((30 * ((phi (i - 1) j + phi i j) / 2) ^ 2 * (1 - (phi (i - 1) j + phi i j) / 2) ^ 2 - 1) *
          (phi i j - phi (i - 1) j)))) := by
  obtain ⟨a0, a1⟩ := hu (i - 1) j
  obtain ⟨b0, b1⟩ := hu i j
  have m0 : 0 ≤ (phi (i - 1) j + phi i j) / 2 := by linarith
  have m1 : (phi (i - 1) j + phi i j) / 2 ≤ 1 := by linarith
  obtain ⟨g1, hg1, e1⟩ := hm (i - 1) j
  obtain ⟨g2, hg2, e2⟩ := hm i j
  rw [interp_l a0 a1] at hg1
  rw [interp_l b0 b1] at hg2
  obtain ⟨w0, w1⟩ := c10_range 'p' (by simp [proper]) _ _ m0 m1 (interp_p m0 m1)
  refine ⟨_, w0, w1, ?_⟩
  rw [kks_uniform 'p' R l s dx temp phi c L A i j _ _ g1 g2 (interp_p m0 m1) (deriv_p m0 m1) e1 e2,
    ← Option.some.inj hg1, ← Option.some.inj hg2]
  congr 1
  ring

/-- **C96 is violated** by the KKS form for a second composition: it is given the coupling of the first one.  A species of
uniform composition, the same in both phases, gets the flux of the first species' partition. -/
theorem c96_violation_kks_second_species (R : ℝ) (l s : Arrhenius) (dx : ℝ) (temp phi cl ca : Field2) (hu : Unit phi)
    (u : ℝ) (i j : ℤ) :
    ∃ w, 0 ≤ w ∧ w ≤ 1 ∧ kksFluxX 'l' 'a' R l s dx temp phi cl ca (fun _ _ => u) i j =
      some (1 / dx * ((1 - w) * rate R l (X temp i j) + w * rate R s (X temp i j)) *
        (((cl i j + cl (i - 1) j) / 2 - (ca i j + ca (i - 1) j) / 2) * (phi i j - phi (i - 1) j))) := by
  obtain ⟨v, h, hv, hh, h0, h1⟩ := face_weight 'l' 'a' (by simp [proper]) (Or.inl rfl) (X phi i j)
    ⟨hu (i - 1) j, hu i j⟩
  have hv' : avgP 'a' (X phi i j).swap = some v := by rw [avgP_swap]; exact hv
  refine ⟨h, h0, h1, ?_⟩
  simp only [kksFluxX, kksDiff, twoPhase, kksCoef, hv, hv', hh, deriv_l, Option.bind_eq_bind, Option.bind_some,
    Option.some.injEq, concentrationFluxX]
  simp only [X, Prod.swap]
  ring

/-! ## Beckermann form -/

theorem addr_x (b : Box) (g i j : ℤ) : addr b g i j - 1 = addr b g (i - 1) j := by unfold addr; ring
theorem addr_y (b : Box) (g i j : ℤ) : addr b g i j - row b g = addr b g i (j - 1) := by unfold addr; ring

/-- The cells read on an x face are the two of the face, if `c` and `k` have the same ghost width. -/
theorem beckCouplX_eq (it at_ : Char) (b : Box) (d0 : Field2) (phi c k : CellArr) (hg : c.g = k.g) (i j : ℤ) :
    beckCouplX it at_ b d0 phi c k i j =
      beckCoef it at_ (d0 i j) (X (phi.cell b) i j).swap (X (c.cell b) i j).swap (X (k.cell b) i j).swap := by
  simp only [beckCouplX, X, CellArr.cell, Prod.swap, addr_x, hg]

/-- On a y face the neighbour of `k` is the cell on the left. -/
theorem beckCouplY_eq (it at_ : Char) (b : Box) (d0 : Field2) (phi c k : CellArr) (hg : c.g = k.g) (i j : ℤ) :
    beckCouplY it at_ b d0 phi c k i j =
      beckCoef it at_ (d0 i j) (Y (phi.cell b) i j).swap (Y (c.cell b) i j).swap (X (k.cell b) i j).swap := by
  simp only [beckCouplY, X, Y, CellArr.cell, Prod.swap, addr_x, addr_y, hg]

/-- **C96**, Beckermann form with linear interpolation, one ghost width and a uniform partition coefficient `κ`: with `L`
the composition of the liquid in every cell, so that the cell has `L*(1 - phi + κ*phi)`, the flux is driven by the
difference of `L` alone.  The coefficient is the mixture of the liquid's and of `κ` times the solid's. -/
theorem c96_beckermann_linear (b : Box) (dl ds dx dy κ : ℝ) (hκ : 0 < κ) (phi c k : CellArr) (hg : c.g = k.g)
    (hu : Unit (phi.cell b)) (hk : ∀ i j, k.cell b i j = κ) (L : Field2)
    (hc : ∀ i j, c.cell b i j = L i j * (1 - phi.cell b i j + κ * phi.cell b i j)) (i j : ℤ) :
    (let p := phi.cell b (i - 1) j; let q := phi.cell b i j; let m := (p + q) / 2
     beckFluxX 'l' 'a' b dl ds dx phi c k i j =
      some (1 / dx * (((1 - m) * dl + κ * m * ds) * ((1 - p + κ * p) * (1 - q + κ * q)) / (1 - m + κ * m) ^ 2) *
        (L i j - L (i - 1) j))) ∧
    (let p := phi.cell b i (j - 1); let q := phi.cell b i j; let m := (p + q) / 2
     beckFluxY 'l' 'a' b dl ds dy phi c k i j =
      some (1 / dy * (((1 - m) * dl + κ * m * ds) * ((1 - p + κ * p) * (1 - q + κ * q)) / (1 - m + κ * m) ^ 2) *
        (L i j - L i (j - 1)))) := by
  have key : ∀ p q l1 l2 d : ℝ, 0 ≤ p → p ≤ 1 → 0 ≤ q → q ≤ 1 →
      1 / d * ((ds + (dl - ds) * (1 - (p + q) / 2) / (1 - (p + q) / 2 + κ * ((p + q) / 2))) *
        (l2 * (1 - q + κ * q) - l1 * (1 - p + κ * p)) +
        (ds + (dl - ds) * (1 - (p + q) / 2) / (1 - (p + q) / 2 + κ * ((p + q) / 2))) * (1 - κ) *
          ((l2 * (1 - q + κ * q) + l1 * (1 - p + κ * p)) / 2) / (1 - (p + q) / 2 + κ * ((p + q) / 2)) * (q - p)) =
      1 / d * (((1 - (p + q) / 2) * dl + κ * ((p + q) / 2) * ds) * ((1 - p + κ * p) * (1 - q + κ * q)) /
        (1 - (p + q) / 2 + κ * ((p + q) / 2)) ^ 2) * (l2 - l1) := by
    intro p q l1 l2 d p0 p1 q0 q1
    have hw : 1 - (p + q) / 2 + κ * ((p + q) / 2) ≠ 0 := by
      have : 0 < 1 - (p + q) / 2 + κ * ((p + q) / 2) := by
        rcases (show (p + q) / 2 ≤ 1 by linarith).lt_or_eq with g | g
        · have := mul_nonneg hκ.le (show 0 ≤ (p + q) / 2 by linarith)
          linarith
        · rw [g]; linarith
      exact this.ne'
    have hD : ds + (dl - ds) * (1 - (p + q) / 2) / (1 - (p + q) / 2 + κ * ((p + q) / 2)) =
        ((1 - (p + q) / 2) * dl + κ * ((p + q) / 2) * ds) / (1 - (p + q) / 2 + κ * ((p + q) / 2)) := by
      rw [eq_div_iff hw, add_mul, div_mul_cancel₀ _ hw]
      ring
    have hA : (l2 * (1 - q + κ * q) - l1 * (1 - p + κ * p)) * (1 - (p + q) / 2 + κ * ((p + q) / 2)) +
        (1 - κ) * ((l2 * (1 - q + κ * q) + l1 * (1 - p + κ * p)) / 2) * (q - p) =
        (1 - p + κ * p) * (1 - q + κ * q) * (l2 - l1) := by ring
    rw [hD]
    generalize (1 - (p + q) / 2) * dl + κ * ((p + q) / 2) * ds = N
    generalize 1 - (p + q) / 2 + κ * ((p + q) / 2) = w at hw hA
    generalize 1 / d = e
    have : e * (N * ((1 - p + κ * p) * (1 - q + κ * q)) / w ^ 2) * (l2 - l1) =
        e * (N / w ^ 2 * ((1 - p + κ * p) * (1 - q + κ * q) * (l2 - l1))) := by ring
    rw [this, ← hA]
    generalize l2 * (1 - q + κ * q) = u
    generalize l1 * (1 - p + κ * p) = v
    field_simp
  constructor
  · have hv : avgP 'a' (X (phi.cell b) i j) = some ((phi.cell b (i - 1) j + phi.cell b i j) / 2) := avg_a _ _
    have hh := interp_l (x := (phi.cell b (i - 1) j + phi.cell b i j) / 2)
      (by linarith [(hu (i - 1) j).1, (hu i j).1]) (by linarith [(hu (i - 1) j).2, (hu i j).2])
    have hkk : avgP 'a' (X (k.cell b) i j) = some κ := by
      simp only [avgP, X, hk, avg_a]; congr 1; ring
    have hcc : avgP 'a' (X (c.cell b) i j) = some ((c.cell b (i - 1) j + c.cell b i j) / 2) := avg_a _ _
    simp only [beckFluxX, beckermannX, beckermann, beckCouplX_eq _ _ _ _ _ _ _ hg, beckCoef, avgP_swap, hv, hh, hkk,
      hcc, hk, Option.bind_eq_bind, Option.bind_some, Option.some.injEq, concentrationFluxX, hc]
    have := key (phi.cell b (i - 1) j) (phi.cell b i j) (L (i - 1) j) (L i j) dx (hu _ _).1 (hu _ _).2 (hu _ _).1 (hu _ _).2
    rw [← this]
    ring
  · have hv : avgP 'a' (Y (phi.cell b) i j) = some ((phi.cell b i (j - 1) + phi.cell b i j) / 2) := avg_a _ _
    have hh := interp_l (x := (phi.cell b i (j - 1) + phi.cell b i j) / 2)
      (by linarith [(hu i (j - 1)).1, (hu i j).1]) (by linarith [(hu i (j - 1)).2, (hu i j).2])
    have hkk : avgP 'a' (X (k.cell b) i j) = some κ := by
      simp only [avgP, X, hk, avg_a]; congr 1; ring
    have hcc : avgP 'a' (Y (c.cell b) i j) = some ((c.cell b i (j - 1) + c.cell b i j) / 2) := avg_a _ _
    simp only [beckFluxY, beckermannY, beckermann, beckCouplY_eq _ _ _ _ _ _ _ hg, beckCoef, avgP_swap, hv, hh, hkk,
      hcc, hk, Option.bind_eq_bind, Option.bind_some, Option.some.injEq, concentrationFluxY, hc]
    have := key (phi.cell b i (j - 1)) (phi.cell b i j) (L i (j - 1)) (L i j) dy (hu _ _).1 (hu _ _).2 (hu _ _).1 (hu _ _).2
    rw [← this]
    ring

/-- Patch and phase with an interface, for the examples. -/
def box : Box := ⟨0, 0, 4⟩
noncomputable def phiArr : CellArr := ⟨fun n => if n ≤ 13 then 1 / 4 else 3 / 4, 1⟩
noncomputable def concArr : CellArr := ⟨fun n => 3 * (1 - phiArr.mem n + 1 / 4 * phiArr.mem n), 1⟩
noncomputable def kArr : CellArr := ⟨fun _ => 1 / 4, 1⟩

theorem phiArr_unit : Unit (phiArr.cell box) := by
  intro i j
  by_cases h : addr box 1 i j ≤ 13 <;> simp only [CellArr.cell, phiArr, h, if_true, if_false] <;> norm_num

example : concArr.g = kArr.g ∧ (∀ i j, kArr.cell box i j = 1 / 4) ∧
    (∀ i j, concArr.cell box i j = (fun _ _ => 3 : Field2) i j * (1 - phiArr.cell box i j + 1 / 4 * phiArr.cell box i j)) ∧
    phiArr.cell box 0 1 = 1 / 4 ∧ phiArr.cell box 1 1 = 3 / 4 :=
  ⟨rfl, fun _ _ => rfl, fun _ _ => rfl, by norm_num [CellArr.cell, phiArr, addr, row, box],
    by norm_num [CellArr.cell, phiArr, addr, row, box]⟩

/-- **C96**: hence, for positive coefficients, no flux exactly where the liquid composition does not change. -/
theorem c96_beckermann_zero_iff (b : Box) (dl ds dx κ : ℝ) (hκ : 0 < κ) (hl : 0 < dl) (hs : 0 < ds) (hdx : 0 < dx)
    (phi c k : CellArr) (hg : c.g = k.g) (hu : Unit (phi.cell b)) (hk : ∀ i j, k.cell b i j = κ) (L : Field2)
    (hc : ∀ i j, c.cell b i j = L i j * (1 - phi.cell b i j + κ * phi.cell b i j)) (i j : ℤ) :
    (beckFluxX 'l' 'a' b dl ds dx phi c k i j = some 0 ↔ L i j = L (i - 1) j) ∧
      (beckFluxY 'l' 'a' b dl ds dx phi c k i j = some 0 ↔ L i j = L i (j - 1)) := by
  have pos : ∀ a : ℝ, ∀ u v : ℝ, 0 < u → 0 < v → 0 ≤ a → a ≤ 1 → 0 < (1 - a) * u + a * v := by
    intro a u v hu hv h0 h1
    rcases h0.eq_or_lt with g | g
    · rw [← g]; linarith
    · nlinarith [mul_pos g hv, mul_nonneg (sub_nonneg.mpr h1) hu.le]
  have w : ∀ a : ℝ, 0 ≤ a → a ≤ 1 → 0 < 1 - a + κ * a := by
    intro a h0 h1
    have := pos a 1 κ one_pos hκ h0 h1
    linarith
  have coef : ∀ p q : ℝ, 0 ≤ p → p ≤ 1 → 0 ≤ q → q ≤ 1 →
      0 < 1 / dx * (((1 - (p + q) / 2) * dl + κ * ((p + q) / 2) * ds) * ((1 - p + κ * p) * (1 - q + κ * q)) /
        (1 - (p + q) / 2 + κ * ((p + q) / 2)) ^ 2) := by
    intro p q p0 p1 q0 q1
    have h1 := pos ((p + q) / 2) dl (κ * ds) hl (mul_pos hκ hs) (by linarith) (by linarith)
    have h1' : 0 < (1 - (p + q) / 2) * dl + κ * ((p + q) / 2) * ds := by linarith
    have h2 := w p p0 p1
    have h3 := w q q0 q1
    have h4 := w ((p + q) / 2) (by linarith) (by linarith)
    positivity
  obtain ⟨hx, hy⟩ := c96_beckermann_linear b dl ds dx dx κ hκ phi c k hg hu hk L hc i j
  simp only [] at hx hy
  have fin : ∀ e x y : ℝ, 0 < e → (some (e * (x - y)) = some 0 ↔ x = y) := by
    intro e x y he
    rw [Option.some.injEq, mul_eq_zero, or_iff_right he.ne', sub_eq_zero]
  exact ⟨by rw [hx]; exact fin _ _ _ (coef _ _ (hu _ _).1 (hu _ _).2 (hu _ _).1 (hu _ _).2),
    by rw [hy]; exact fin _ _ _ (coef _ _ (hu _ _).1 (hu _ _).2 (hu _ _).1 (hu _ _).2)⟩

/-- **C96 is violated** by the Beckermann form with an interpolation that is not linear, in particular with the default:
the coupling lacks the derivative of the interpolation.  Uniform liquid composition, uniform partition coefficient, a face
in the middle of the interface: the flux is the difference between the jump of the phase and the jump of the solid
fraction, and is not zero. -/
theorem c96_violation_beckermann_nonlinear (it : Char) (hit : it = 'p' ∨ it = 'h') (b : Box) (dl ds dx κ L s : ℝ)
    (hκ : 0 < κ) (hκ1 : κ ≠ 1) (hl : 0 < dl) (hs : 0 < ds) (hdx : 0 < dx) (hL : L ≠ 0) (s0 : 0 < s) (s1 : s < 1 / 2)
    (phi c k : CellArr) (hg : c.g = k.g) (hk : ∀ i j, k.cell b i j = κ) (i j : ℤ)
    (hp : phi.cell b (i - 1) j = 1 / 2 - s) (hq : phi.cell b i j = 1 / 2 + s) (h1 h2 : ℝ)
    (e1 : interpFunc it (1 / 2 - s) = some h1) (e2 : interpFunc it (1 / 2 + s) = some h2)
    (c1 : c.cell b (i - 1) j = L * (1 - h1 + κ * h1)) (c2 : c.cell b i j = L * (1 - h2 + κ * h2)) :
    ∃ D, 0 < D ∧ beckFluxX it 'a' b dl ds dx phi c k i j = some (D * ((1 - κ) * L * (2 * s - (h2 - h1)))) ∧
      D * ((1 - κ) * L * (2 * s - (h2 - h1))) ≠ 0 := by
  have hv : avgP 'a' (X (phi.cell b) i j) = some (1 / 2) := by
    simp only [avgP, X, avg_a, hp, hq]; congr 1; ring
  have hkk : avgP 'a' (X (k.cell b) i j) = some κ := by
    simp only [avgP, X, hk, avg_a]; congr 1; ring
  have hh : interpFunc it (1 / 2) = some (1 / 2) ∧ h1 + h2 = 1 ∧ 2 * s - (h2 - h1) ≠ 0 := by
    rcases hit with rfl | rfl
    · rw [interp_p (by linarith) (by linarith)] at e1 e2
      rw [interp_p (by norm_num) (by norm_num), ← Option.some.inj e1, ← Option.some.inj e2]
      refine ⟨by norm_num, by ring, ?_⟩
      have : 2 * s - ((1 / 2 + s) * (1 / 2 + s) * (1 / 2 + s) * (10 - 15 * (1 / 2 + s) + 6 * (1 / 2 + s) * (1 / 2 + s)) -
        (1 / 2 - s) * (1 / 2 - s) * (1 / 2 - s) * (10 - 15 * (1 / 2 - s) + 6 * (1 / 2 - s) * (1 / 2 - s))) =
        -(2 * s * ((1 / 4 - s ^ 2) * (7 / 2 - 6 * s ^ 2))) := by ring
      rw [this]
      have a1 : 0 < 1 / 4 - s ^ 2 := by nlinarith
      have a2 : 0 < 7 / 2 - 6 * s ^ 2 := by nlinarith
      exact neg_ne_zero.mpr (by positivity)
    · rw [interp_h (by linarith) (by linarith)] at e1 e2
      rw [interp_h (by norm_num) (by norm_num), ← Option.some.inj e1, ← Option.some.inj e2]
      refine ⟨by norm_num, by ring, ?_⟩
      have : 2 * s - ((1 / 2 + s) * (1 / 2 + s) * (3 - 2 * (1 / 2 + s)) - (1 / 2 - s) * (1 / 2 - s) * (3 - 2 * (1 / 2 - s))) =
        -(4 * s * (1 / 4 - s ^ 2)) := by ring
      rw [this]
      have a1 : 0 < 1 / 4 - s ^ 2 := by nlinarith
      exact neg_ne_zero.mpr (by positivity)
  obtain ⟨hh, hsum, hne⟩ := hh
  have hw : (0 : ℝ) < 1 - 1 / 2 + κ * (1 / 2) := by linarith
  have hD : 0 < ds + (dl - ds) * (1 - 1 / 2) / (1 - 1 / 2 + κ * (1 / 2)) := by
    have : ds + (dl - ds) * (1 - 1 / 2) / (1 - 1 / 2 + κ * (1 / 2)) =
        ((1 / 2) * dl + (1 / 2) * κ * ds) / (1 - 1 / 2 + κ * (1 / 2)) := by
      rw [eq_div_iff hw.ne', add_mul, div_mul_cancel₀ _ hw.ne']
      ring
    rw [this]; positivity
  have hcc : avgP 'a' (X (c.cell b) i j) = some (L * (1 - 1 / 2 + κ * (1 / 2))) := by
    simp only [avgP, X, avg_a, c1, c2]; congr 1
    linear_combination (κ - 1) * L / 2 * hsum
  refine ⟨1 / dx * (ds + (dl - ds) * (1 - 1 / 2) / (1 - 1 / 2 + κ * (1 / 2))), by positivity, ?_, ?_⟩
  · simp only [beckFluxX, beckermannX, beckermann, beckCouplX_eq _ _ _ _ _ _ _ hg, beckCoef, avgP_swap, hv, hh, hkk,
      hcc, hk, Option.bind_eq_bind, Option.bind_some, Option.some.injEq, concentrationFluxX, c1, c2, hp, hq]
    generalize ds + (dl - ds) * (1 - 1 / 2) / (1 - 1 / 2 + κ * (1 / 2)) = D
    have hcancel : D * (1 - κ) * (L * (1 - 1 / 2 + κ * (1 / 2))) / (1 - 1 / 2 + κ * (1 / 2)) = D * (1 - κ) * L := by
      rw [← mul_assoc, mul_div_assoc, div_self hw.ne', mul_one]
    rw [hcancel]
    ring
  · have : 1 - κ ≠ 0 := sub_ne_zero.mpr (Ne.symm hκ1)
    exact mul_ne_zero (by positivity) (mul_ne_zero (mul_ne_zero this hL) hne)

/-- A face in the middle of the interface with the default interpolation. -/
example : interpFunc 'p' (1 / 2 - 1 / 4) = some (53 / 512) ∧ interpFunc 'p' (1 / 2 + 1 / 4) = some (459 / 512) := by
  rw [interp_p (by norm_num) (by norm_num), interp_p (by norm_num) (by norm_num)]
  norm_num

/-- **C96 is violated** by the Beckermann form on y faces when the partition coefficient varies: the coefficient is that
of the face's own two cells only if the cell on the left happens to have the same partition coefficient as the cell
below. -/
theorem c96_violation_beckermann_neighbour (it at_ : Char) (hat : at_ = 'a') (b : Box) (d0 : Field2) (phi c k : CellArr)
    (hg : c.g = k.g) (hpos : ∀ i j, 0 < k.cell b i j) (i j : ℤ) (v h u : ℝ) (hv : avgP at_ (Y (phi.cell b) i j) = some v)
    (hh : interpFunc it v = some h) (h0 : 0 ≤ h) (h1 : h ≤ 1) (hu : avgP at_ (Y (c.cell b) i j) = some u) (hu0 : u ≠ 0)
    (hd : d0 i j ≠ 0) :
    beckCouplY it at_ b d0 phi c k i j =
        beckCoef it at_ (d0 i j) (Y (phi.cell b) i j).swap (Y (c.cell b) i j).swap (Y (k.cell b) i j).swap ↔
      k.cell b (i - 1) j = k.cell b i (j - 1) := by
  subst hat
  rw [beckCouplY_eq _ _ _ _ _ _ _ hg]
  simp only [beckCoef, avgP_swap, hv, hh, hu, Option.bind_eq_bind, Option.bind_some]
  simp only [avgP, X, Y, avg_a, Option.bind_some, Option.some.injEq]
  have p1 := hpos (i - 1) j
  have p2 := hpos i (j - 1)
  have p3 := hpos i j
  generalize k.cell b (i - 1) j = x at *
  generalize k.cell b i (j - 1) = y at *
  generalize k.cell b i j = z at *
  generalize d0 i j = d at *
  have w : ∀ t : ℝ, 0 < t → 0 < 1 - h + t * h := by
    intro t ht
    rcases h1.lt_or_eq with g | g
    · nlinarith [mul_nonneg ht.le h0]
    · rw [g]; linarith
  have w1 := w ((x + z) / 2) (by linarith)
  have w2 := w ((y + z) / 2) (by linarith)
  rw [div_eq_div_iff w1.ne' w2.ne']
  constructor
  · intro e
    have : d * u * ((y - x) / 2) = 0 := by linear_combination e
    rcases mul_eq_zero.mp this with g | g
    · exact absurd g (mul_ne_zero hd hu0)
    · linarith
  · intro e; rw [e]

/-- **C96 is violated** by the Beckermann form with two ghost cells for the composition (upwind advection) and one for the
partition coefficient: no x face reads its own cells.  For every state there is another one that differs in a single cell
which is not a cell of the face, and that has another coefficient on the face. -/
theorem c96_violation_beckermann_ghosts (it : Char) (b : Box) (hn : 0 < b.n0) (d0 : Field2) (phi c k : CellArr)
    (hk : k.g = 1) (hc : c.g = 2) (i j : ℤ) (hj : b.lo1 ≤ j) (v h u : ℝ)
    (hv : avgP 'a' (X (phi.cell b) i j) = some v) (hh : interpFunc it v = some h)
    (hu : avgP 'a' (X (k.cell b) i j) = some u) (hu1 : u ≠ 1) (hw : 1 - h + u * h ≠ 0) (hd : d0 i j ≠ 0) :
    ∃ c' : CellArr, c'.g = 2 ∧ c'.cell b i j = c.cell b i j ∧ c'.cell b (i - 1) j = c.cell b (i - 1) j ∧
      beckCouplX it 'a' b d0 phi c' k i j ≠ beckCouplX it 'a' b d0 phi c k i j := by
  have far : addr b 2 i j ≠ addr b 1 i j ∧ addr b 2 (i - 1) j ≠ addr b 1 i j := by
    unfold addr row
    have : (j - (b.lo1 - 2)) * (b.n0 + 2 * 2) - (j - (b.lo1 - 1)) * (b.n0 + 2 * 1) = b.n0 + 4 + 2 * (j - b.lo1 + 1) := by ring
    constructor <;> omega
  refine ⟨⟨Function.update c.mem (addr b 1 i j) (c.mem (addr b 1 i j) + 1), 2⟩, rfl, ?_, ?_, ?_⟩
  · simp only [CellArr.cell, hc, Function.update_of_ne far.1]
  · simp only [CellArr.cell, hc, Function.update_of_ne far.2]
  · have hv' : avgP 'a' (phi.mem (addr b phi.g i j), phi.mem (addr b phi.g i j - 1)) = some v := by
      rw [← hv, ← avgP_swap]; simp only [X, CellArr.cell, Prod.swap, addr_x]
    have hu' : avgP 'a' (k.mem (addr b 1 i j), k.mem (addr b 1 i j - 1)) = some u := by
      rw [← hu, ← avgP_swap]; simp only [X, CellArr.cell, Prod.swap, addr_x, hk]
    have ne : addr b 1 i j - 1 ≠ addr b 1 i j := by omega
    simp only [beckCouplX, beckCoef, hk, hv', hu', hh, Option.bind_eq_bind, Option.bind_some, Function.update_self,
      Function.update_of_ne ne]
    simp only [avgP, avg_a, Option.bind_some, ne_eq, Option.some.injEq]
    rw [div_left_inj' hw]
    intro e
    have : d0 i j * (1 - u) = 0 := by linear_combination 2 * e
    exact mul_ne_zero hd (sub_ne_zero.mpr (Ne.symm hu1)) this

/-- **C96** The cells of the ghost box are numbered from zero at its lower corner, along x first, and rows follow each other without gaps. -/
theorem c96_addresses (b : Box) (g i j : ℤ) :
    addr b g (b.lo0 - g) (b.lo1 - g) = 0 ∧ addr b g (i + 1) j = addr b g i j + 1 ∧
      addr b g (b.lo0 - g) (j + 1) = addr b g (b.lo0 + b.n0 - 1 + g) j + 1 := by
  simp only [addr, row]
  refine ⟨by ring, by ring, by ring⟩

end AMPE.Coupling.Props
