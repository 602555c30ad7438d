import Verif.Model.SmoothLevel
import Verif.Props.Smoother
import Mathlib.Algebra.BigOperators.Fin
import Mathlib.Algebra.Order.BigOperators.Group.Finset
import Mathlib.Topology.MetricSpace.Contracting
import Mathlib.Tactic.Linarith
import Mathlib.Tactic.Ring
import Mathlib.Tactic.FieldSimp
import Mathlib.Tactic.Positivity

/-! Helper lemmas for C114: a level of patches, without reference to the dimension. -/

namespace AMPE.SmoothLevel

open AMPE.Smoother AMPE.Smoother.Props

/-! ## One update is an averaging -/

theorem avg_pos {n : ℕ} (w E : Fin n → ℝ) (e W s D : ℝ) (hw : ∀ k, 0 ≤ w k) (hW : ∑ k, w k ≤ W) (hs : s < 0)
    (he : |e| ≤ D) (hE : ∀ k, |E k| ≤ D) :
    |e + (∑ k, w k * (E k - e) + s * e) * (1 / (W - s))| ≤ (1 + s * (1 / (W - s))) * D := by
  have hS : 0 ≤ ∑ k, w k := Finset.sum_nonneg fun k _ => hw k
  have hT : 0 < W - s := by linarith
  have h1 : e + (∑ k, w k * (E k - e) + s * e) * (1 / (W - s)) = (e * (W - ∑ k, w k) + ∑ k, w k * E k) / (W - s) := by
    rw [eq_div_iff hT.ne', add_mul, mul_assoc, one_div, inv_mul_cancel₀ hT.ne']
    simp only [mul_sub, Finset.sum_sub_distrib, ← Finset.sum_mul]
    ring
  have h2 : (1 + s * (1 / (W - s))) * D = W * D / (W - s) := by
    field_simp
    ring
  rw [h1, h2, abs_div, abs_of_pos hT]
  refine div_le_div_of_nonneg_right ?_ hT.le
  have h3 : |∑ k, w k * E k| ≤ (∑ k, w k) * D := by
    refine (Finset.abs_sum_le_sum_abs _ _).trans ?_
    rw [Finset.sum_mul]
    refine Finset.sum_le_sum fun k _ => ?_
    rw [abs_mul, abs_of_nonneg (hw k)]
    exact mul_le_mul_of_nonneg_left (hE k) (hw k)
  have h4 : |e * (W - ∑ k, w k)| ≤ D * (W - ∑ k, w k) := by
    rw [abs_mul, abs_of_nonneg (sub_nonneg.2 hW)]
    exact mul_le_mul_of_nonneg_right he (sub_nonneg.2 hW)
  calc |e * (W - ∑ k, w k) + ∑ k, w k * E k| ≤ _ := abs_add_le _ _
    _ ≤ D * (W - ∑ k, w k) + (∑ k, w k) * D := add_le_add h4 h3
    _ = W * D := by ring

theorem avg {n : ℕ} (w E : Fin n → ℝ) (e W s D σ : ℝ) (hσ : σ = 1 ∨ σ = -1) (hw : ∀ k, 0 ≤ σ * w k)
    (hW : σ * ∑ k, w k ≤ σ * W) (hs : σ * s < 0) (he : |e| ≤ D) (hE : ∀ k, |E k| ≤ D) :
    |e + (∑ k, w k * (E k - e) + s * e) * (1 / (W - s))| ≤ (1 + s * (1 / (W - s))) * D := by
  rcases hσ with rfl | rfl
  · exact avg_pos w E e W s D (fun k => by simpa using hw k) (by simpa using hW) (by simpa using hs) he hE
  · have h := avg_pos (fun k => -w k) E e (-W) (-s) D (fun k => by simpa using hw k)
      (by rw [Finset.sum_neg_distrib]; linarith) (by linarith) he hE
    have h1 : (1 : ℝ) / (-W - -s) = -(1 / (W - s)) := by
      rw [show -W - -s = -(W - s) by ring, div_neg]
    rw [h1] at h
    have h2 : ∑ k, -w k * (E k - e) = -∑ k, w k * (E k - e) := by
      rw [← Finset.sum_neg_distrib]
      exact Finset.sum_congr rfl fun k _ => by ring
    rw [h2] at h
    have h3 : e + (-∑ k, w k * (E k - e) + -s * e) * -(1 / (W - s)) =
      e + (∑ k, w k * (E k - e) + s * e) * (1 / (W - s)) := by ring
    have h4 : (1 + -s * -(1 / (W - s))) * D = (1 + s * (1 / (W - s))) * D := by ring
    rwa [h3, h4] at h

/-! ## Levels -/

variable {ι Box : Type} (inside : Box → ι → Prop) [∀ B p, Decidable (inside B p)]

/-- The cell belongs to the level. -/
def OnLevel (Bs : List Box) (p : ι) : Prop := ∃ B ∈ Bs, inside B p

/-- What is assumed of the ghost fill: it keeps the cells of the level, and changing the values of the level by at most
`D` changes the filled values by at most `D`. -/
structure GoodFill (Bs : List Box) (fill : (ι → ℝ) → ι → ℝ) : Prop where
  keep : ∀ u p, OnLevel inside Bs p → fill u p = u p
  close : ∀ u v D, 0 ≤ D → (∀ p, OnLevel inside Bs p → |u p - v p| ≤ D) → ∀ q, |fill u q - fill v q| ≤ D

variable {inside}

theorem levelPass_snoc (cp : Box → (ι → ℝ) → (ι → ℝ) × ℝ) (fill : (ι → ℝ) → ι → ℝ) (Bs : List Box) (B : Box)
    (u : ι → ℝ) : levelPass inside cp fill (Bs ++ [B]) u =
      (fun p => if inside B p then (cp B (fill u)).1 p else (levelPass inside cp fill Bs u).1 p, (cp B (fill u)).2) := by
  unfold levelPass
  simp only [List.foldl_append, List.foldl_cons, List.foldl_nil]

theorem owner (Bs : List Box) (p : ι) :
    ((∀ B ∈ Bs, ¬ inside B p) ∧ ∀ cp fill u, (levelPass inside cp fill Bs u).1 p = fill u p) ∨
    ∃ B ∈ Bs, inside B p ∧ ∀ cp fill u, (levelPass inside cp fill Bs u).1 p = (cp B (fill u)).1 p := by
  induction Bs using List.reverseRecOn with
  | nil => left; exact ⟨by simp, fun _ _ _ => rfl⟩
  | append_singleton Bs B ih =>
    by_cases hB : inside B p
    · right
      refine ⟨B, by simp, hB, fun cp fill u => ?_⟩
      rw [levelPass_snoc]
      exact if_pos hB
    · rcases ih with ⟨h1, h2⟩ | ⟨B', h1, h2, h3⟩
      · left
        refine ⟨?_, fun cp fill u => ?_⟩
        · intro B' hB'
          rcases List.mem_append.1 hB' with h | h
          · exact h1 B' h
          · rw [List.mem_singleton.1 h]; exact hB
        · rw [levelPass_snoc]
          exact (if_neg hB).trans (h2 cp fill u)
      · right
        refine ⟨B', by simp [h1], h2, fun cp fill u => ?_⟩
        rw [levelPass_snoc]
        exact (if_neg hB).trans (h3 cp fill u)

/-- A patch smoother which replaces the values of the cells `vis` by `upd`. -/
structure Smooths (inside : Box → ι → Prop) (cp : ℤ → Box → (ι → ℝ) → (ι → ℝ) × ℝ) (Bs : List Box)
    (vis : ℤ → Box → List ι) (upd : (ι → ℝ) → ι → ℝ) (ρ : ℝ) : Prop where
  hit : ∀ off B u p, p ∈ vis off B → (cp off B u).1 p = upd u p
  miss : ∀ off B u p, p ∉ vis off B → (cp off B u).1 p = u p
  cover : ∀ B ∈ Bs, ∀ p, inside B p → p ∈ vis 0 B ∨ p ∈ vis 1 B
  shrink : ∀ p, OnLevel inside Bs p → ∀ u v D, (∀ q, |u q - v q| ≤ D) → |upd u p - upd v p| ≤ ρ * D

section
variable {cp : ℤ → Box → (ι → ℝ) → (ι → ℝ) × ℝ} {fill : (ι → ℝ) → ι → ℝ} {Bs : List Box} {vis : ℤ → Box → List ι}
  {upd : (ι → ℝ) → ι → ℝ} {ρ : ℝ}

theorem pass_close (hf : GoodFill inside Bs fill) (hs : Smooths inside cp Bs vis upd ρ) (h1 : ρ ≤ 1) (off : ℤ)
    (u v : ι → ℝ) (D : ℝ) (hD : ∀ p, OnLevel inside Bs p → |u p - v p| ≤ D) (p : ι) (hp : OnLevel inside Bs p) :
    |(levelPass inside (cp off) fill Bs u).1 p - (levelPass inside (cp off) fill Bs v).1 p| ≤ D := by
  have hD0 : 0 ≤ D := (abs_nonneg _).trans (hD p hp)
  have hg := hf.close u v D hD0 hD
  rcases owner (inside := inside) Bs p with ⟨h, _⟩ | ⟨B, hB, hin, hv⟩
  · obtain ⟨B, hB, hin⟩ := hp
    exact absurd hin (h B hB)
  · rw [hv (cp off) fill u, hv (cp off) fill v]
    by_cases hm : p ∈ vis off B
    · rw [hs.hit _ _ _ _ hm, hs.hit _ _ _ _ hm]
      exact (hs.shrink p hp _ _ D hg).trans (by nlinarith)
    · rw [hs.miss _ _ _ _ hm, hs.miss _ _ _ _ hm]
      exact hg p

theorem sweep_close (hf : GoodFill inside Bs fill) (hs : Smooths inside cp Bs vis upd ρ) (h1 : ρ ≤ 1)
    (u v : ι → ℝ) (D : ℝ) (hD : ∀ p, OnLevel inside Bs p → |u p - v p| ≤ D) (p : ι) (hp : OnLevel inside Bs p) :
    |(sweep inside cp fill Bs u).1 p - (sweep inside cp fill Bs v).1 p| ≤ ρ * D := by
  have hD0 : 0 ≤ D := (abs_nonneg _).trans (hD p hp)
  have hr := pass_close hf hs h1 0 u v D hD
  have hg := hf.close u v D hD0 hD
  have hgr := hf.close _ _ D hD0 hr
  unfold sweep
  simp only
  rcases owner (inside := inside) Bs p with ⟨h, _⟩ | ⟨B, hB, hin, hv⟩
  · obtain ⟨B, hB, hin⟩ := hp
    exact absurd hin (h B hB)
  · rw [hv (cp 1), hv (cp 1)]
    by_cases hm : p ∈ vis 1 B
    · rw [hs.hit _ _ _ _ hm, hs.hit _ _ _ _ hm]
      exact hs.shrink p hp _ _ D hgr
    · rw [hs.miss _ _ _ _ hm, hs.miss _ _ _ _ hm, hf.keep _ _ hp, hf.keep _ _ hp, hv (cp 0), hv (cp 0)]
      have hm0 : p ∈ vis 0 B := (hs.cover B hB p hin).resolve_right hm
      rw [hs.hit _ _ _ _ hm0, hs.hit _ _ _ _ hm0]
      exact hs.shrink p hp _ _ D hg

theorem sweep_fixed (hf : GoodFill inside Bs fill) (hs : Smooths inside cp Bs vis upd ρ) (h1 : ρ ≤ 1) (v : ι → ℝ)
    (hv : ∀ p, OnLevel inside Bs p → upd (fill v) p = v p) (p : ι) (hp : OnLevel inside Bs p) :
    (sweep inside cp fill Bs v).1 p = v p := by
  have key : ∀ off (u : ι → ℝ), (∀ p, OnLevel inside Bs p → u p = v p) → ∀ p, OnLevel inside Bs p →
      (levelPass inside (cp off) fill Bs u).1 p = v p := by
    intro off u hu p hp
    have hfu : fill u = fill v := by
      funext q
      have := hf.close u v 0 le_rfl (fun p hp => by rw [hu p hp]; simp) q
      exact sub_eq_zero.1 (abs_eq_zero.1 (le_antisymm this (abs_nonneg _)))
    rcases owner (inside := inside) Bs p with ⟨h, _⟩ | ⟨B, hB, hin, ho⟩
    · obtain ⟨B, hB, hin⟩ := hp
      exact absurd hin (h B hB)
    · rw [ho (cp off), hfu]
      by_cases hm : p ∈ vis off B
      · rw [hs.hit _ _ _ _ hm, hv p hp]
      · rw [hs.miss _ _ _ _ hm, hf.keep _ _ hp]
  unfold sweep
  exact key 1 _ (key 0 v fun _ _ => rfl) p hp

theorem smooth_iter (tol : ℝ) (n : ℕ) (u : ι → ℝ) :
    (smooth inside cp fill tol Bs n u).1 =
      (fun w => (sweep inside cp fill Bs w).1)^[(smooth inside cp fill tol Bs n u).2] u ∧
    (smooth inside cp fill tol Bs n u).2 ≤ n ∧ (tol < 0 → (smooth inside cp fill tol Bs n u).2 = n) := by
  induction n generalizing u with
  | zero => exact ⟨rfl, le_refl _, fun _ => rfl⟩
  | succ n ih =>
    by_cases h : 0 ≤ tol ∧ (sweep inside cp fill Bs u).2 ≤ tol
    · have he : smooth inside cp fill tol Bs (n + 1) u = ((sweep inside cp fill Bs u).1, 1) := by
        simp only [smooth, if_pos h]
      rw [he]
      exact ⟨rfl, by simp, fun h' => absurd h.1 (not_le.2 h')⟩
    · have he : smooth inside cp fill tol Bs (n + 1) u =
          ((smooth inside cp fill tol Bs n (sweep inside cp fill Bs u).1).1,
            (smooth inside cp fill tol Bs n (sweep inside cp fill Bs u).1).2 + 1) := by
        simp only [smooth, if_neg h]
      rw [he]
      obtain ⟨h1, h2, h3⟩ := ih (sweep inside cp fill Bs u).1
      refine ⟨?_, by simpa using h2, fun h' => by simpa using h3 h'⟩
      simp only [Function.iterate_succ, Function.comp]
      exact h1

/-- Two runs with the same number of sweeps approach each other. -/
theorem iter_close (hf : GoodFill inside Bs fill) (hs : Smooths inside cp Bs vis upd ρ) (h0 : 0 ≤ ρ) (h1 : ρ ≤ 1)
    (n : ℕ) (u v : ι → ℝ) (D : ℝ) (hD : ∀ p, OnLevel inside Bs p → |u p - v p| ≤ D) (p : ι)
    (hp : OnLevel inside Bs p) :
    |(fun w => (sweep inside cp fill Bs w).1)^[n] u p - (fun w => (sweep inside cp fill Bs w).1)^[n] v p| ≤ ρ ^ n * D := by
  induction n generalizing u v D with
  | zero => simpa using hD p hp
  | succ n ih =>
    simp only [Function.iterate_succ, Function.comp]
    have := ih _ _ (ρ * D) (fun q hq => sweep_close hf hs h1 u v D hD q hq)
    rw [pow_succ, mul_assoc]
    exact this

theorem iter_fixed (hf : GoodFill inside Bs fill) (hs : Smooths inside cp Bs vis upd ρ) (h0 : 0 ≤ ρ) (h1 : ρ ≤ 1) (v : ι → ℝ)
    (hv : ∀ p, OnLevel inside Bs p → upd (fill v) p = v p) (n : ℕ) (p : ι) (hp : OnLevel inside Bs p) :
    (fun w => (sweep inside cp fill Bs w).1)^[n] v p = v p := by
  induction n with
  | zero => rfl
  | succ n ih =>
    have h := iter_close hf hs h0 h1 n (sweep inside cp fill Bs v).1 v 0
      (fun q hq => by rw [sweep_fixed hf hs h1 v hv q hq]; simp) p hp
    rw [mul_zero] at h
    have := sub_eq_zero.1 (abs_eq_zero.1 (le_antisymm h (abs_nonneg _)))
    simp only [Function.iterate_succ, Function.comp]
    exact this.trans ih

/-- The residual of the last sweep bounds the distance to the solution. -/
theorem stop_bound (hf : GoodFill inside Bs fill) (hs : Smooths inside cp Bs vis upd ρ) (h1 : ρ < 1)
    (v : ι → ℝ) (hv : ∀ p, OnLevel inside Bs p → upd (fill v) p = v p) (w : ι → ℝ) (μ D0 : ℝ)
    (hD0 : ∀ p, OnLevel inside Bs p → |w p - v p| ≤ D0)
    (hw : ∀ p, OnLevel inside Bs p → |(sweep inside cp fill Bs w).1 p - w p| ≤ μ) (h0 : 0 ≤ ρ) (p : ι)
    (hp : OnLevel inside Bs p) : |(sweep inside cp fill Bs w).1 p - v p| ≤ ρ * (μ / (1 - ρ)) := by
  have hμ : 0 ≤ μ := (abs_nonneg _).trans (hw p hp)
  have hρ : 0 < 1 - ρ := by linarith
  have step : ∀ D, (∀ q, OnLevel inside Bs q → |w q - v q| ≤ D) →
      ∀ q, OnLevel inside Bs q → |(sweep inside cp fill Bs w).1 q - v q| ≤ ρ * D := by
    intro D hD q hq
    have := sweep_close hf hs h1.le w v D hD q hq
    rwa [sweep_fixed hf hs h1.le v hv q hq] at this
  have iter : ∀ n : ℕ, ∀ q, OnLevel inside Bs q → |w q - v q| ≤ μ / (1 - ρ) + ρ ^ n * |D0| := by
    intro n
    induction n with
    | zero =>
      intro q hq
      have := div_nonneg hμ hρ.le
      have := (hD0 q hq).trans (le_abs_self D0)
      simp only [pow_zero, one_mul]
      linarith
    | succ n ih =>
      intro q hq
      have h2 := step _ ih q hq
      have h3 := hw q hq
      have h4 : |w q - v q| ≤ |(sweep inside cp fill Bs w).1 q - w q| + |(sweep inside cp fill Bs w).1 q - v q| := by
        rw [abs_sub_comm _ (w q)]
        exact abs_sub_le _ _ _
      have h5 : μ + ρ * (μ / (1 - ρ)) = μ / (1 - ρ) := by
        field_simp
        ring
      calc |w q - v q| ≤ μ + ρ * (μ / (1 - ρ) + ρ ^ n * |D0|) := by linarith
        _ = (μ + ρ * (μ / (1 - ρ))) + ρ ^ (n + 1) * |D0| := by ring
        _ = _ := by rw [h5]
  refine step _ (fun q hq => ?_) p hp
  refine le_of_forall_pos_le_add fun ε hε => ?_
  obtain ⟨n, hn⟩ := exists_pow_lt_of_lt_one (show 0 < ε / (|D0| + 1) by positivity) h1
  refine (iter n q hq).trans ?_
  have : ρ ^ n * |D0| ≤ ε / (|D0| + 1) * |D0| := mul_le_mul_of_nonneg_right hn.le (abs_nonneg _)
  have h6 : ε / (|D0| + 1) * |D0| ≤ ε := by
    rw [div_mul_eq_mul_div, div_le_iff₀ (by positivity)]
    nlinarith
  linarith

/-- Bound on the error of any values by their residuals: `gap` is the change one update would make. -/
theorem gap_bound (hf : GoodFill inside Bs fill) (v u : ι → ℝ)
    (hv : ∀ p, OnLevel inside Bs p → upd (fill v) p = v p) (k : ι → ℝ) (κ T D0 : ℝ) (hκ : 0 < κ) (hκ1 : κ ≤ 1)
    (hk : ∀ p, OnLevel inside Bs p → κ ≤ k p) (hT : 0 ≤ T)
    (hsh : ∀ p, OnLevel inside Bs p → ∀ u v D, (∀ q, |u q - v q| ≤ D) → |upd u p - upd v p| ≤ (1 - k p) * D)
    (hD0 : ∀ p, OnLevel inside Bs p → |u p - v p| ≤ D0)
    (hg : ∀ p, OnLevel inside Bs p → |upd (fill u) p - u p| ≤ k p * T) (p : ι) (hp : OnLevel inside Bs p) :
    |u p - v p| ≤ T := by
  have iter : ∀ n : ℕ, ∀ q, OnLevel inside Bs q → |u q - v q| ≤ T + (1 - κ) ^ n * |D0| := by
    intro n
    induction n with
    | zero =>
      intro q hq
      have := (hD0 q hq).trans (le_abs_self D0)
      simp only [pow_zero, one_mul]
      linarith
    | succ n ih =>
      intro q hq
      have h5 : 0 ≤ (1 - κ) ^ n * |D0| := mul_nonneg (pow_nonneg (by linarith) _) (abs_nonneg _)
      have h2 := hsh q hq _ _ _ (hf.close u v _ (by linarith) ih)
      rw [hv q hq] at h2
      have h3 := hg q hq
      have h4 : |u q - v q| ≤ |upd (fill u) q - u q| + |upd (fill u) q - v q| := by
        rw [abs_sub_comm _ (u q)]
        exact abs_sub_le _ _ _
      have h6 : (1 - k q) * ((1 - κ) ^ n * |D0|) ≤ (1 - κ) * ((1 - κ) ^ n * |D0|) :=
        mul_le_mul_of_nonneg_right (by linarith [hk q hq]) h5
      calc |u q - v q| ≤ k q * T + (1 - k q) * (T + (1 - κ) ^ n * |D0|) := by linarith
        _ = T + (1 - k q) * ((1 - κ) ^ n * |D0|) := by ring
        _ ≤ T + (1 - κ) * ((1 - κ) ^ n * |D0|) := by linarith
        _ = _ := by ring
  refine le_of_forall_pos_le_add fun ε hε => ?_
  obtain ⟨n, hn⟩ := exists_pow_lt_of_lt_one (show 0 < ε / (|D0| + 1) by positivity) (show 1 - κ < 1 by linarith)
  refine (iter n p hp).trans ?_
  have : (1 - κ) ^ n * |D0| ≤ ε / (|D0| + 1) * |D0| := mul_le_mul_of_nonneg_right hn.le (abs_nonneg _)
  have h6 : ε / (|D0| + 1) * |D0| ≤ ε := by
    rw [div_mul_eq_mul_div, div_le_iff₀ (by positivity)]
    nlinarith
  linarith

/-- A level of finitely many cells has a fixed point. -/
theorem exists_fixed [DecidableEq ι] (S : Finset ι) (hS : ∀ p, p ∈ S ↔ OnLevel inside Bs p) (hf : GoodFill inside Bs fill)
    (h0 : 0 ≤ ρ) (h1 : ρ < 1)
    (hsh : ∀ p, OnLevel inside Bs p → ∀ u v D, (∀ q, |u q - v q| ≤ D) → |upd u p - upd v p| ≤ ρ * D) :
    ∃ v : ι → ℝ, ∀ p, OnLevel inside Bs p → upd (fill v) p = v p := by
  let ext : (S → ℝ) → ι → ℝ := fun x p => if h : p ∈ S then x ⟨p, h⟩ else 0
  let J : (S → ℝ) → (S → ℝ) := fun x p => upd (fill (ext x)) p
  have hext : ∀ x y : S → ℝ, ∀ p, OnLevel inside Bs p → |ext x p - ext y p| ≤ dist x y := by
    intro x y p hp
    have hpS := (hS p).2 hp
    simp only [ext, dif_pos hpS]
    exact dist_le_pi_dist x y ⟨p, hpS⟩
  have hJ : ContractingWith ⟨ρ, h0⟩ J := by
    refine ⟨by exact_mod_cast h1, LipschitzWith.of_dist_le_mul fun x y => ?_⟩
    refine (dist_pi_le_iff (mul_nonneg h0 dist_nonneg)).2 fun p => ?_
    exact hsh p ((hS p).1 p.2) _ _ _ (hf.close _ _ _ dist_nonneg (hext x y))
  refine ⟨ext (ContractingWith.fixedPoint J hJ), fun p hp => ?_⟩
  have hfix := hJ.fixedPoint_isFixedPt
  have hpS := (hS p).2 hp
  have h := congrFun hfix ⟨p, hpS⟩
  have : ext (ContractingWith.fixedPoint J hJ) p = ContractingWith.fixedPoint J hJ ⟨p, hpS⟩ := by
    simp only [ext, dif_pos hpS]
  rw [this]
  exact h

omit [∀ B p, Decidable (inside B p)] in
theorem bounded_of (S : Finset ι) (hS : ∀ p, p ∈ S ↔ OnLevel inside Bs p) (f : ι → ℝ) :
    ∃ D, 0 ≤ D ∧ ∀ p, OnLevel inside Bs p → |f p| ≤ D :=
  ⟨∑ p ∈ S, |f p|, Finset.sum_nonneg fun _ _ => abs_nonneg _, fun p hp =>
    Finset.single_le_sum (f := fun q => |f q|) (fun _ _ => abs_nonneg _) ((hS p).2 hp)⟩

end

end AMPE.SmoothLevel
