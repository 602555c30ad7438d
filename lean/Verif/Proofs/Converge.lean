import Mathlib.Analysis.Calculus.MeanValue
import Mathlib.Analysis.Calculus.IteratedDeriv.Defs
import Mathlib.Analysis.Calculus.Deriv.Pow
import Mathlib.Analysis.Calculus.Deriv.Shift
import Verif.Proofs.Invariance

/-!
# Difference quotients of smooth functions, and growth of the largest component of an error

Second and first central differences with remainder, and: if the rate of a component of largest size is at most `Λ` times its size
plus `τ`, the error at time `t` is at most `(E + τ t) exp (Λ t)`.
-/

namespace AMPE.Converge

open Set

/-- A function that starts at zero with a rate at most `C s ^ k` is at most `C h ^ (k + 1) / (k + 1)`. -/
theorem grow {φ φ' : ℝ → ℝ} {C : ℝ} (k : ℕ) (hd : ∀ s, HasDerivAt φ (φ' s) s) (h0 : φ 0 = 0) (hb : ∀ s, 0 ≤ s → |φ' s| ≤ C * s ^ k)
    {h : ℝ} (hh : 0 ≤ h) : |φ h| ≤ C * (h ^ (k + 1) / (k + 1)) := by
  have key := image_norm_le_of_norm_deriv_right_le_deriv_boundary (f := φ) (f' := φ') (a := 0) (b := h)
    (fun s _ => (hd s).continuousAt.continuousWithinAt) (fun s _ => (hd s).hasDerivWithinAt)
    (B := fun s => C * (s ^ (k + 1) / (k + 1))) (B' := fun s => C * s ^ k)
    (by simp [h0]) (fun s => by
      have h1 : ((k : ℝ) + 1) ≠ 0 := by positivity
      refine (((hasDerivAt_pow (k + 1) s).div_const ((k : ℝ) + 1)).const_mul C).congr_deriv ?_
      rw [Nat.add_sub_cancel]; push_cast; field_simp)
    (fun s hs => by rw [Real.norm_eq_abs]; exact hb s hs.1) (right_mem_Icc.2 hh)
  simpa [Real.norm_eq_abs] using key

theorem fwd {f : ℝ → ℝ} {f' : ℝ} {x s : ℝ} (h : HasDerivAt f f' (x + s)) : HasDerivAt (fun r => f (x + r)) f' s := by
  simpa using h.comp_const_add x s

theorem bwd {f : ℝ → ℝ} {f' : ℝ} {x s : ℝ} (h : HasDerivAt f f' (x - s)) : HasDerivAt (fun r => f (x - r)) (-f') s := by
  simpa using h.comp_const_sub x s

/-- The second difference. -/
def diff2 (f : ℝ → ℝ) (x h : ℝ) : ℝ := f (x + h) - 2 * f x + f (x - h)

theorem first_le {f f1 : ℝ → ℝ} {B : ℝ} (h0 : ∀ x, HasDerivAt f (f1 x) x) (hB : ∀ x, |f1 x| ≤ B) (x : ℝ) {h : ℝ} (hh : 0 ≤ h) :
    |f (x + h) - f (x - h)| ≤ 2 * B * h := by
  have := grow (φ := fun s => f (x + s) - f (x - s)) (C := 2 * B) 0 (fun s => (fwd (h0 (x + s))).sub (bwd (h0 (x - s)))) (by simp)
    (fun s _ => by
      have := hB (x + s); have := hB (x - s)
      rw [abs_le] at *; rw [pow_zero]
      constructor <;> linarith) hh
  simpa using this

theorem diff2_le {f f1 f2 : ℝ → ℝ} {B : ℝ} (h0 : ∀ x, HasDerivAt f (f1 x) x) (h1 : ∀ x, HasDerivAt f1 (f2 x) x) (hB : ∀ x, |f2 x| ≤ B)
    (x : ℝ) {h : ℝ} (hh : 0 ≤ h) : |diff2 f x h| ≤ B * h ^ 2 := by
  have := grow (φ := fun s => diff2 f x s) (φ' := fun s => f1 (x + s) - f1 (x - s)) (C := 2 * B) 1
    (fun s => (((fwd (h0 (x + s))).sub_const _).add (bwd (h0 (x - s)))).congr_deriv (by ring)) (by simp [diff2]; ring)
    (fun s hs => by rw [pow_one]; exact first_le h1 hB x hs) hh
  refine this.trans (le_of_eq ?_)
  norm_num; ring

theorem first_taylor {f f1 f2 f3 : ℝ → ℝ} {B : ℝ} (h0 : ∀ x, HasDerivAt f (f1 x) x) (h1 : ∀ x, HasDerivAt f1 (f2 x) x)
    (h2 : ∀ x, HasDerivAt f2 (f3 x) x) (hB : ∀ x, |f3 x| ≤ B) (x : ℝ) {h : ℝ} (hh : 0 ≤ h) :
    |f (x + h) - f (x - h) - 2 * h * f1 x| ≤ B * h ^ 3 / 3 := by
  have := grow (φ := fun s => f (x + s) - f (x - s) - 2 * s * f1 x) (φ' := fun s => diff2 f1 x s) (C := B) 2
    (fun s => (((fwd (h0 (x + s))).sub (bwd (h0 (x - s)))).sub (((hasDerivAt_id s).const_mul 2).mul_const (f1 x))).congr_deriv
      (by simp [diff2]; ring)) (by simp)
    (fun s hs => diff2_le h1 h2 hB x hs) hh
  refine this.trans (le_of_eq ?_)
  norm_num; ring

theorem diff2_taylor {f f1 f2 f3 f4 : ℝ → ℝ} {B : ℝ} (h0 : ∀ x, HasDerivAt f (f1 x) x) (h1 : ∀ x, HasDerivAt f1 (f2 x) x)
    (h2 : ∀ x, HasDerivAt f2 (f3 x) x) (h3 : ∀ x, HasDerivAt f3 (f4 x) x) (hB : ∀ x, |f4 x| ≤ B) (x : ℝ) {h : ℝ} (hh : 0 ≤ h) :
    |diff2 f x h - h ^ 2 * f2 x| ≤ B * h ^ 4 / 12 := by
  have := grow (φ := fun s => diff2 f x s - s ^ 2 * f2 x) (φ' := fun s => f1 (x + s) - f1 (x - s) - 2 * s * f2 x) (C := B / 3) 3
    (fun s => ((((fwd (h0 (x + s))).sub_const _).add (bwd (h0 (x - s)))).sub ((hasDerivAt_pow 2 s).mul_const (f2 x))).congr_deriv
      (by simp; ring)) (by simp [diff2]; ring)
    (fun s hs => (first_taylor h1 h2 h3 hB x hs).trans (le_of_eq (by ring))) hh
  refine this.trans (le_of_eq ?_)
  norm_num; ring

/-! ## Iterated derivatives -/

theorem chain {f : ℝ → ℝ} {n : ℕ} (hf : ContDiff ℝ n f) {k : ℕ} (hk : k < n) (x : ℝ) :
    HasDerivAt (iteratedDeriv k f) (iteratedDeriv (k + 1) f x) x := by
  rw [iteratedDeriv_succ]
  exact ((hf.differentiable_iteratedDeriv k (by exact_mod_cast hk)) x).hasDerivAt

theorem second_diff {f : ℝ → ℝ} {B : ℝ} (hf : ContDiff ℝ 4 f) (hB : ∀ x, |iteratedDeriv 4 f x| ≤ B) (x : ℝ) {h : ℝ} (hh : 0 ≤ h) :
    |diff2 f x h - h ^ 2 * iteratedDeriv 2 f x| ≤ B * h ^ 4 / 12 := by
  have c0 := chain (n := 4) hf (k := 0) (by norm_num)
  rw [iteratedDeriv_zero] at c0
  exact diff2_taylor c0 (chain (n := 4) hf (k := 1) (by norm_num)) (chain (n := 4) hf (k := 2) (by norm_num))
    (chain (n := 4) hf (k := 3) (by norm_num)) hB x hh

theorem first_diff {f : ℝ → ℝ} {B : ℝ} (hf : ContDiff ℝ 4 f) (hB : ∀ x, |iteratedDeriv 3 f x| ≤ B) (x : ℝ) {h : ℝ} (hh : 0 ≤ h) :
    |f (x + h) - f (x - h) - 2 * h * iteratedDeriv 1 f x| ≤ B * h ^ 3 / 3 := by
  have c0 := chain (n := 4) hf (k := 0) (by norm_num)
  rw [iteratedDeriv_zero] at c0
  exact first_taylor c0 (chain (n := 4) hf (k := 1) (by norm_num)) (chain (n := 4) hf (k := 2) (by norm_num)) hB x hh

/-- Second difference along both axes. -/
theorem mixed_diff {u : ℝ → ℝ → ℝ} {B : ℝ} (hx : ∀ y, ContDiff ℝ 4 (fun s => u s y))
    (hm : ∀ x, ContDiff ℝ 2 (fun y => iteratedDeriv 2 (fun s => u s y) x))
    (hB : ∀ x y, |iteratedDeriv 2 (fun r => iteratedDeriv 2 (fun s => u s r) x) y| ≤ B) (x y : ℝ) {h k : ℝ} (hh : 0 ≤ h) (hk : 0 ≤ k) :
    |diff2 (fun s => diff2 (fun r => u s r) y k) x h| ≤ B * k ^ 2 * h ^ 2 := by
  have c0 := fun r => chain (n := 4) (hx r) (k := 0) (by norm_num)
  have c1 := fun r => chain (n := 4) (hx r) (k := 1) (by norm_num)
  simp only [iteratedDeriv_zero] at c0
  have e0 := fun x' => chain (n := 2) (hm x') (k := 0) (by norm_num)
  have e1 := fun x' => chain (n := 2) (hm x') (k := 1) (by norm_num)
  simp only [iteratedDeriv_zero] at e0
  refine diff2_le (f := fun s => diff2 (fun r => u s r) y k)
    (f1 := fun s => diff2 (fun r => iteratedDeriv 1 (fun s' => u s' r) s) y k)
    (f2 := fun s => diff2 (fun r => iteratedDeriv 2 (fun s' => u s' r) s) y k) (fun s => ?_) (fun s => ?_) (fun s => ?_) x hh
  · exact ((c0 (y + k) s).sub ((c0 y s).const_mul 2)).add (c0 (y - k) s)
  · exact ((c1 (y + k) s).sub ((c1 y s).const_mul 2)).add (c1 (y - k) s)
  · exact diff2_le (e0 s) (e1 s) (hB s) y hk

/-! ## The error -/

theorem error_le {ι : Type} (S : Finset ι) (e e' : ℝ → ι → ℝ) (T Λ τ E : ℝ) (hΛ : 0 ≤ Λ) (hτ : 0 ≤ τ) (hE : 0 ≤ E)
    (hd : ∀ t ∈ Icc 0 T, ∀ i ∈ S, HasDerivAt (fun s => e s i) (e' t i) t)
    (h0 : ∀ i ∈ S, |e 0 i| ≤ E)
    (up : ∀ t ∈ Icc 0 T, ∀ i ∈ S, 0 ≤ e t i → (∀ j ∈ S, |e t j| ≤ e t i) → e' t i ≤ Λ * e t i + τ)
    (dn : ∀ t ∈ Icc 0 T, ∀ i ∈ S, e t i ≤ 0 → (∀ j ∈ S, |e t j| ≤ -e t i) → -e' t i ≤ Λ * -e t i + τ) :
    ∀ t ∈ Icc 0 T, ∀ i ∈ S, |e t i| ≤ (E + τ * t) * Real.exp (Λ * t) := by
  set b : ℝ → ℝ := fun t => (E + τ * t) * Real.exp (Λ * t) with hb
  have hbd : ∀ t, HasDerivAt b (τ * Real.exp (Λ * t) + Λ * b t) t := fun t => by
    have h1 := (((hasDerivAt_id t).const_mul τ).const_add E).mul (((hasDerivAt_id t).const_mul Λ).exp)
    refine h1.congr_deriv ?_
    simp only [hb, id_eq, mul_one]; ring
  have hb0 : ∀ t, 0 ≤ t → 0 ≤ b t := fun t ht =>
    mul_nonneg (by have := mul_nonneg hτ ht; linarith) (Real.exp_pos _).le
  have he1 : ∀ t, 0 ≤ t → τ ≤ τ * Real.exp (Λ * t) := fun t ht => by
    have := Real.one_le_exp (mul_nonneg hΛ ht)
    nlinarith
  set sg : Bool → ℝ := fun s => if s then 1 else -1 with hsg
  have key := Invariance.stays_nonneg (S ×ˢ (Finset.univ : Finset Bool)) (fun t p => b t - sg p.2 * e t p.1)
    (fun t p => (τ * Real.exp (Λ * t) + Λ * b t) - sg p.2 * e' t p.1) T Λ 1 one_pos
    (fun t ht p hp => (hbd t).sub ((hd t ht p.1 (Finset.mem_product.1 hp).1).const_mul _))
    (fun p hp => by
      have := h0 p.1 (Finset.mem_product.1 hp).1
      rw [abs_le] at this
      have hb00 : b 0 = E := by simp [hb]
      rw [hb00]
      rcases p with ⟨i, s⟩
      cases s <;> simp [hsg] at * <;> linarith)
    (fun t ht p hp hmin _ hneg => by
      have hi := (Finset.mem_product.1 hp).1
      have hbt := hb0 t ht.1
      have hmin' : ∀ j ∈ S, |e t j| ≤ sg p.2 * e t p.1 := fun j hj => by
        have h1 := hmin (j, true) (Finset.mem_product.2 ⟨hj, Finset.mem_univ _⟩)
        have h2 := hmin (j, false) (Finset.mem_product.2 ⟨hj, Finset.mem_univ _⟩)
        simp only [hsg, if_true, Bool.false_eq_true, if_false] at h1 h2 ⊢
        rw [abs_le]; constructor <;> linarith
      have hτe := he1 t ht.1
      have goal : sg p.2 * e' t p.1 ≤ Λ * (sg p.2 * e t p.1) + τ := by
        rcases p with ⟨i, s⟩
        cases s
        · simp only [hsg, Bool.false_eq_true, if_false, neg_mul, one_mul] at *
          exact dn t ht i hi (by linarith) hmin'
        · simp only [hsg, if_true, one_mul] at *
          exact up t ht i hi (by linarith) hmin'
      show Λ * (b t - sg p.2 * e t p.1) ≤ _
      linarith)
  intro t ht i hi
  have h1 := key t ht (i, true) (Finset.mem_product.2 ⟨hi, Finset.mem_univ _⟩)
  have h2 := key t ht (i, false) (Finset.mem_product.2 ⟨hi, Finset.mem_univ _⟩)
  simp only [hsg, if_true, Bool.false_eq_true, if_false] at h1 h2
  rw [abs_le]
  constructor <;> linarith

end AMPE.Converge
