import Verif.Proofs.MeltRest3
import Verif.Props.GrainFlow

/-!
# Helpers for C152
-/

namespace AMPE.GrainRest

open AMPE.Functions AMPE.Flux AMPE.PhaseRHS AMPE.PhaseRHS.Props AMPE.PhaseBounds AMPE.MultiBounds AMPE.GrainFlow AMPE.GrainFlow.Props
  AMPE.MeltFlow AMPE.Rest

/-- A class of functions of time that is closed under what the forces are built from. -/
structure Closed (P : (ℝ → ℝ) → Prop) : Prop where
  const : ∀ c, P fun _ => c
  add : ∀ {f g : ℝ → ℝ}, P f → P g → P fun t => f t + g t
  sub : ∀ {f g : ℝ → ℝ}, P f → P g → P fun t => f t - g t
  mul : ∀ {f g : ℝ → ℝ}, P f → P g → P fun t => f t * g t
  sum : ∀ {ι : Type} (s : Finset ι) {f : ι → ℝ → ℝ}, (∀ i, P (f i)) → P fun t => ∑ i ∈ s, f i t
  inv : ∀ {f : ℝ → ℝ} (c : ℝ), 0 < c → P f → (∀ t, 0 ≤ t → c ≤ f t) → P fun t => 1 / f t

theorem closed_bounded : Closed Bounded where
  const := Bounded.const
  add := Bounded.add
  sub := Bounded.sub
  mul := Bounded.mul
  sum := fun s _ h => Bounded.sum s h
  inv := by
    intro f c hc _ h
    refine ⟨1 / c, fun t ht => ?_⟩
    rw [abs_of_nonneg (one_div_nonneg.2 (hc.le.trans (h t ht)))]
    exact one_div_le_one_div_of_le hc (h t ht)

theorem closed_tame : Closed Tame where
  const := Tame.const
  add := Tame.add
  sub := Tame.sub
  mul := Tame.mul
  sum := fun s _ h => Tame.sum s h
  inv := by
    intro f c hc hf h
    obtain ⟨hb, K, hK⟩ := hf
    refine ⟨closed_bounded.inv c hc hb h, K / (c * c), fun s t hs ht => ?_⟩
    have ps := hc.trans_le (h s hs)
    have pt := hc.trans_le (h t ht)
    rw [show 1 / f s - 1 / f t = (f t - f s) / (f s * f t) by field_simp, abs_div, abs_of_pos (mul_pos ps pt), div_mul_eq_mul_div]
    rw [abs_sub_comm]
    exact div_le_div₀ ((abs_nonneg _).trans (hK s t hs ht)) (hK s t hs ht) (by positivity) (mul_le_mul (h s hs) (h t ht) hc.le ps.le)

/-- The order parameters of a cell do not all vanish, where there is a driving force. -/
def Filled (n : ℕ) (f : GrainForce) (phi : ℝ → Fin (n + 1) → ℝ) : Prop :=
  f = .none ∨ ∃ c > 0, ∀ t, 0 ≤ t → c ≤ ∑ p, phi t p ^ 2

theorem drive_closed {P : (ℝ → ℝ) → Prop} (hP : Closed P) (n : ℕ) (f : GrainForce) (phi : ℝ → Fin (n + 1) → ℝ) (h : ∀ p, P fun t => phi t p)
    (hf : Filled n f phi) (p : Fin (n + 1)) : P fun t => drive n f (phi t) p := by
  have key : ∀ c > 0, (∀ t, 0 ≤ t → c ≤ ∑ p, phi t p ^ 2) → ∀ t, 0 ≤ t →
      c ≤ (∑ k : Fin n, phi t k.castSucc * phi t k.castSucc) + phi t (Fin.last n) * phi t (Fin.last n) := by
    intro c _ h t ht
    have := h t ht
    rw [Fin.sum_univ_castSucc] at this
    simpa only [sq] using this
  have hs : P fun t => ∑ k : Fin n, phi t k.castSucc * phi t k.castSucc := hP.sum _ fun k => hP.mul (h _) (h _)
  have hl : P fun t => phi t (Fin.last n) * phi t (Fin.last n) := hP.mul (h _) (h _)
  cases f with
  | none => exact hP.const 0
  | two fl fa =>
    rcases hf with hf | ⟨c, hc, hf⟩
    · cases hf
    have hi := hP.inv c hc (hP.add hs hl) (key c hc hf)
    simp only [drive, multiDriving]
    by_cases hp : p = Fin.last n
    · simp only [hp, if_true]
      exact hP.mul (hP.mul (hP.mul (hP.mul (hP.const _) (h _)) (hP.mul hs hi)) hi) (hP.const _)
    · simp only [hp, if_false]
      exact hP.mul (hP.mul (hP.mul (hP.mul (hP.const _) (h _)) (hP.mul hl hi)) hi) (hP.const _)
  | three nA dfl dfa dfb =>
    rcases hf with hf | ⟨c, hc, hf⟩
    · cases hf
    have ha : P fun t => ∑ k : Fin n, if k.val < nA then phi t k.castSucc * phi t k.castSucc else 0 := hP.sum _ fun k => by
      by_cases hk : k.val < nA
      · simp only [hk, if_true]; exact hP.mul (h _) (h _)
      · simp only [hk, if_false]; exact hP.const 0
    have hb : P fun t => ∑ k : Fin n, if k.val < nA then 0 else phi t k.castSucc * phi t k.castSucc := hP.sum _ fun k => by
      by_cases hk : k.val < nA
      · simp only [hk, if_true]; exact hP.const 0
      · simp only [hk, if_false]; exact hP.mul (h _) (h _)
    have hi := hP.inv c hc (hP.add (hP.add hl ha) hb) fun t ht => by
      have e : (∑ k : Fin n, phi t k.castSucc * phi t k.castSucc) = (∑ k : Fin n, if k.val < nA then phi t k.castSucc * phi t k.castSucc else 0)
          + ∑ k : Fin n, if k.val < nA then 0 else phi t k.castSucc * phi t k.castSucc := by
        rw [← Finset.sum_add_distrib]
        exact Finset.sum_congr rfl fun k _ => by split_ifs <;> ring
      have := key c hc hf t ht
      rw [e] at this
      linarith
    simp only [drive, ternaryDriving]
    refine hP.sub (hP.const 0) ?_
    by_cases hp : p = Fin.last n
    · simp only [hp, if_true]
      repeat' first | exact hi | exact ha | exact hb | exact hl | exact h _ | exact hP.const _ | apply hP.sub | apply hP.add | apply hP.mul
    · by_cases hk : p.val < nA
      · simp only [hp, hk, if_false, if_true]
        repeat' first | exact hi | exact ha | exact hb | exact hl | exact h _ | exact hP.const _ | apply hP.sub | apply hP.add | apply hP.mul
      · simp only [hp, hk, if_false]
        repeat' first | exact hi | exact ha | exact hb | exact hl | exact h _ | exact hP.const _ | apply hP.sub | apply hP.add | apply hP.mul

theorem cell_closed {P : (ℝ → ℝ) → Prop} (hP : Closed P) (n : ℕ) (gamma m : ℝ) (f : GrainForce) (diff phi : ℝ → Fin (n + 1) → ℝ)
    (hd : ∀ p, P fun t => diff t p) (h : ∀ p, P fun t => phi t p) (hf : Filled n f phi) (p : Fin (n + 1)) :
    P fun t => cellRateM n gamma m 1 f (diff t) (phi t) p := by
  have hs : P fun t => ∑ k, phi t k * phi t k := hP.sum _ fun k => hP.mul (h _) (h _)
  have hv := drive_closed hP n f phi h hf p
  simp only [cellRateM, multiWell]
  repeat' first | exact hv | exact hs | exact hd _ | exact h _ | exact hP.const _ | apply hP.sub | apply hP.add | apply hP.mul

theorem push_closed {P : (ℝ → ℝ) → Prop} (hP : Closed P) (n : ℕ) (st : Stencil) (eps gamma m dx dy : ℝ) (f : ℤ → ℤ → GrainForce)
    (phi : ℝ → Fin (n + 1) → Field2) (h : ∀ p i j, P fun t => phi t p i j) (i j : ℤ) (hf : Filled n (f i j) fun t p => phi t p i j)
    (p : Fin (n + 1)) : P fun t => push2 n st eps gamma m dx dy f (phi t) p i j := by
  simp only [push2, rateMulti2, frameTerm, add_zero]
  refine cell_closed hP n gamma m (f i j) (fun t k => diffTerm2 st eps dx dy (phi t k) i j) (fun t k => phi t k i j) (fun p => ?_)
    (fun p => h p i j) hf p
  cases st <;> simp only [diffTerm2, div2, gradFluxX, gradFluxY, isoFluxX, isoFluxY, div_eq_mul_inv] <;>
  repeat' first | exact h _ _ _ | exact hP.const _ | apply hP.sub | apply hP.add | apply hP.mul

theorem push3_closed {P : (ℝ → ℝ) → Prop} (hP : Closed P) (n : ℕ) (eps gamma m dx dy dz : ℝ) (f : ℤ → ℤ → ℤ → GrainForce)
    (phi : ℝ → Fin (n + 1) → Field3) (h : ∀ p i j k, P fun t => phi t p i j k) (i j k : ℤ)
    (hf : Filled n (f i j k) fun t p => phi t p i j k)
    (p : Fin (n + 1)) : P fun t => push3 n eps gamma m dx dy dz f (phi t) p i j k := by
  simp only [push3, rateMulti3, frameTerm, add_zero]
  refine cell_closed hP n gamma m (f i j k) (fun t q => div3 dx dy dz (gradFlux3X eps dx (phi t q)) (gradFlux3Y eps dy (phi t q))
    (gradFlux3Z eps dz (phi t q)) i j k) (fun t q => phi t q i j k) (fun p => ?_) (fun p => h p i j k) hf p
  simp only [div3, gradFlux3X, gradFlux3Y, gradFlux3Z, div_eq_mul_inv]
  repeat' first | exact h _ _ _ _ | exact hP.const _ | apply hP.sub | apply hP.add | apply hP.mul

/-- The wells keep order parameters from growing. -/
theorem wells_ge (n : ℕ) (gamma m : ℝ) (hg : 0 ≤ gamma) (hm : 0 ≤ m) (phi : Fin n → ℝ) :
    (∑ p, m / 4 * (phi p ^ 2 - 1) ^ 2) - n * (m * (1 / 4 + gamma / 6)) ≤ wells n gamma m phi := by
  have pairs : 0 ≤ ∑ i, ∑ j, if i < j then phi i ^ 2 * phi j ^ 2 else (0 : ℝ) :=
    Finset.sum_nonneg fun i _ => Finset.sum_nonneg fun j _ => by split_ifs <;> positivity
  have one : ∀ x : ℝ, m / 4 * (x ^ 2 - 1) ^ 2 - m * (1 / 4 + gamma / 6) ≤
      m * (x ^ 4 / 4 - x ^ 2 / 2) - m * gamma * (2 / 3 * x ^ 3 - 1 / 2 * x ^ 4) := by
    intro x
    have h : 0 ≤ m * gamma * ((x - 1) ^ 2 * (2 * x ^ 2 + (x + 1) ^ 2)) := mul_nonneg (mul_nonneg hm hg) (by positivity)
    nlinarith
  have s := Finset.sum_le_sum fun (p : Fin n) (_ : p ∈ Finset.univ) => one (phi p)
  rw [Finset.sum_sub_distrib, Finset.sum_sub_distrib] at s
  simp only [← Finset.mul_sum, Finset.sum_const, Finset.card_univ, Fintype.card_fin, nsmul_eq_mul] at s
  unfold wells multiPotential
  rw [← Finset.mul_sum]
  have := mul_nonneg hm (mul_nonneg hg pairs)
  linarith

theorem bulk_low (n : ℕ) (f : GrainForce) : ∃ B, ∀ phi : Fin (n + 1) → ℝ, -B ≤ bulk n f phi := by
  have key : ∀ W : Fin (n + 1) → ℝ, ∀ phi : Fin (n + 1) → ℝ, -(∑ k, |W k|) ≤ interpEnergy W phi := by
    intro W phi
    have s0 : 0 ≤ ∑ k, phi k ^ 2 := Finset.sum_nonneg fun k _ => sq_nonneg _
    have h : -(∑ k, |W k|) * ∑ k, phi k ^ 2 ≤ ∑ k, W k * phi k ^ 2 := by
      rw [Finset.mul_sum]
      refine Finset.sum_le_sum fun k _ => mul_le_mul_of_nonneg_right ?_ (sq_nonneg _)
      have := Finset.single_le_sum (f := fun k => |W k|) (fun k _ => abs_nonneg _) (Finset.mem_univ k)
      linarith [neg_abs_le (W k)]
    unfold interpEnergy
    rcases s0.eq_or_lt with e | p
    · rw [← e, div_zero]
      exact neg_nonpos.2 (Finset.sum_nonneg fun k _ => abs_nonneg _)
    · rwa [le_div_iff₀ p]
  cases f with
  | none => exact ⟨0, fun phi => by simp [bulk]⟩
  | two fl fa => exact ⟨_, fun phi => key _ phi⟩
  | three nA dfl dfa dfb => exact ⟨_, fun phi => key _ phi⟩

theorem grad_nonneg (st : Stencil) (eps dx dy : ℝ) (u : Field2) (i j : ℤ) : 0 ≤ gradEnergy st eps dx dy u i j := by
  cases st <;> simp only [gradEnergy] <;> positivity

theorem quartic_bounds (m x B : ℝ) (hm : 0 < m) (h : m / 4 * (x ^ 2 - 1) ^ 2 ≤ B) : |x| ≤ 3 + 4 * B / m := by
  have h1 : (x ^ 2 - 1) ^ 2 ≤ 4 * B / m := by
    rw [le_div_iff₀ hm]
    linarith
  rw [abs_le]
  constructor <;> nlinarith [sq_nonneg (x ^ 2 - 1 - 1), sq_nonneg (x - 1), sq_nonneg (x + 1)]

end AMPE.GrainRest
