import Verif.Proofs.SmoothLevel
import Mathlib.Data.Fin.VecNotation
import Mathlib.Data.Int.Interval
import Mathlib.Data.Finset.Prod
import Mathlib.Tactic.LinearCombination

/-!
# C114 — Red-black smoothing of a level converges to the solution of the level's equations, at a rate given by the
coefficients, on any arrangement of the patches; stopping on the tolerance looks at the last patch only

Spec: the equations of the level are "residual zero in every cell of the level"; the distance of two sets of values is
the largest difference over the cells of the level.
-/

namespace AMPE.SmoothLevel.Props

open AMPE.Smoother AMPE.Smoother.Props AMPE.SmoothLevel

/-- The cell belongs to the level. -/
abbrev Lev2 (Bs : List Box2) (p : ℤ × ℤ) : Prop := OnLevel inside2 Bs p
/-- The cell belongs to the level. -/
abbrev Lev3 (Bs : List Box3) (p : ℤ × ℤ × ℤ) : Prop := OnLevel inside3 Bs p

/-- A definite operator (`σ = 1`: positive diffusion, negative scalar field; `σ = -1`: the other way round, as in the
preconditioners of the phase, temperature and composition equations). -/
structure Definite2 (C : Coef2) (Bs : List Box2) (σ : ℝ) : Prop where
  sign : σ = 1 ∨ σ = -1
  dx : 0 < C.dx ∧ C.dx ≤ C.fx
  dy : 0 < C.dy ∧ C.dy ≤ C.fy
  x0 : ∀ p, Lev2 Bs p → 0 ≤ σ * (C.m p * C.xdc p)
  x1 : ∀ p, Lev2 Bs p → 0 ≤ σ * (C.m p * C.xdc (p.1 + 1, p.2))
  y0 : ∀ p, Lev2 Bs p → 0 ≤ σ * (C.m p * C.ydc p)
  y1 : ∀ p, Lev2 Bs p → 0 ≤ σ * (C.m p * C.ydc (p.1, p.2 + 1))
  react : ∀ p, Lev2 Bs p → σ * C.sf p < 0

/-- Same in 3D. -/
structure Definite3 (C : Coef3) (Bs : List Box3) (σ : ℝ) : Prop where
  sign : σ = 1 ∨ σ = -1
  dx : 0 < C.dx ∧ C.dx ≤ C.fx
  dy : 0 < C.dy ∧ C.dy ≤ C.fy
  dz : 0 < C.dz ∧ C.dz ≤ C.fz
  x0 : ∀ p, Lev3 Bs p → 0 ≤ σ * (C.m p * C.xdc p)
  x1 : ∀ p, Lev3 Bs p → 0 ≤ σ * (C.m p * C.xdc (p.1 + 1, p.2.1, p.2.2))
  y0 : ∀ p, Lev3 Bs p → 0 ≤ σ * (C.m p * C.ydc p)
  y1 : ∀ p, Lev3 Bs p → 0 ≤ σ * (C.m p * C.ydc (p.1, p.2.1 + 1, p.2.2))
  z0 : ∀ p, Lev3 Bs p → 0 ≤ σ * (C.m p * C.zdc p)
  z1 : ∀ p, Lev3 Bs p → 0 ≤ σ * (C.m p * C.zdc (p.1, p.2.1, p.2.2 + 1))
  react : ∀ p, Lev3 Bs p → σ * C.sf p < 0

/-- The values solve the equations of the level. -/
def Solves2 (C : Coef2) (fill : (ℤ × ℤ → ℝ) → ℤ × ℤ → ℝ) (Bs : List Box2) (v : ℤ × ℤ → ℝ) : Prop :=
  ∀ p, Lev2 Bs p → C.levelResidual (fill v) p = 0

/-- The values solve the equations of the level. -/
def Solves3 (C : Coef3) (fill : (ℤ × ℤ × ℤ → ℝ) → ℤ × ℤ × ℤ → ℝ) (Bs : List Box3) (v : ℤ × ℤ × ℤ → ℝ) : Prop :=
  ∀ p, Lev3 Bs p → C.levelResidual (fill v) p = 0

/-- The weight of the scalar field in the diagonal of the operator. -/
noncomputable def share2 (C : Coef2) (p : ℤ × ℤ) : ℝ := -(C.sf p * C.dudr p)
/-- The weight of the scalar field in the diagonal of the operator. -/
noncomputable def share3 (C : Coef3) (p : ℤ × ℤ × ℤ) : ℝ := -(C.sf p * C.dudr p)

/-! ## The patch smoother in the terms of the helper lemmas -/

noncomputable def upd2 (C : Coef2) (u : ℤ × ℤ → ℝ) (p : ℤ × ℤ) : ℝ := u p - C.levelResidual u p * C.dudr p
noncomputable def upd3 (C : Coef3) (u : ℤ × ℤ × ℤ → ℝ) (p : ℤ × ℤ × ℤ) : ℝ := u p - C.levelResidual u p * C.dudr p

theorem weight_le {a d f : ℝ} (ha : 0 ≤ a) (hd : 0 < d) (hf : d ≤ f) : a * (1 / d * (1 / f)) ≤ a * (1 / d * (1 / d)) := by
  refine mul_le_mul_of_nonneg_left ?_ ha
  refine mul_le_mul_of_nonneg_left ?_ (by positivity)
  exact one_div_le_one_div_of_le hd hf

theorem weight_nonneg {a d f : ℝ} (ha : 0 ≤ a) (hd : 0 < d) (hf : d ≤ f) : 0 ≤ a * (1 / d * (1 / f)) := by
  have : 0 < f := hd.trans_le hf
  positivity

theorem shrink2 (C : Coef2) (Bs : List Box2) (σ : ℝ) (hC : Definite2 C Bs σ) (p : ℤ × ℤ) (hp : Lev2 Bs p)
    (u v : ℤ × ℤ → ℝ) (D : ℝ) (hD : ∀ q, |u q - v q| ≤ D) : |upd2 C u p - upd2 C v p| ≤ (1 - share2 C p) * D := by
  obtain ⟨dx0, dx1⟩ := hC.dx
  obtain ⟨dy0, dy1⟩ := hC.dy
  let w : Fin 4 → ℝ := ![C.m p * C.xdc p * (1 / C.dx * (1 / C.fx)), C.m p * C.xdc (p.1 + 1, p.2) * (1 / C.dx * (1 / C.fx)),
    C.m p * C.ydc p * (1 / C.dy * (1 / C.fy)), C.m p * C.ydc (p.1, p.2 + 1) * (1 / C.dy * (1 / C.fy))]
  let E : Fin 4 → ℝ := ![u (p.1 - 1, p.2) - v (p.1 - 1, p.2), u (p.1 + 1, p.2) - v (p.1 + 1, p.2),
    u (p.1, p.2 - 1) - v (p.1, p.2 - 1), u (p.1, p.2 + 1) - v (p.1, p.2 + 1)]
  let W : ℝ := C.m p * (1 / C.dx * (1 / C.dx) * (C.xdc (p.1 + 1, p.2) + C.xdc p) +
    1 / C.dy * (1 / C.dy) * (C.ydc (p.1, p.2 + 1) + C.ydc p))
  have h := avg w E (u p - v p) W (C.sf p) D σ hC.sign ?_ ?_ (hC.react p hp) (hD p) ?_
  · have hd : (1 : ℝ) / (W - C.sf p) = C.dudr p := rfl
    have h2 : (1 + C.sf p * (1 / (W - C.sf p))) * D = (1 - share2 C p) * D := by
      rw [hd]; unfold share2; ring
    rw [h2, hd] at h
    have h3 : upd2 C u p - upd2 C v p =
        u p - v p + (∑ k, w k * (E k - (u p - v p)) + C.sf p * (u p - v p)) * C.dudr p := by
      unfold upd2 Coef2.levelResidual Coef2.residual Coef2.xflux Coef2.yflux
      simp only [w, E, Fin.sum_univ_four, Matrix.cons_val, add_sub_cancel_right, Prod.mk.eta]
      generalize C.dudr p = d
      ring
    rw [h3]
    exact h
  · intro k
    have e1 := weight_nonneg (hC.x0 p hp) dx0 dx1
    have e2 := weight_nonneg (hC.x1 p hp) dx0 dx1
    have e3 := weight_nonneg (hC.y0 p hp) dy0 dy1
    have e4 := weight_nonneg (hC.y1 p hp) dy0 dy1
    fin_cases k <;> simp only [w, Matrix.cons_val, Fin.mk_one, Fin.zero_eta, Fin.reduceFinMk] <;> rw [← mul_assoc] <;> assumption
  · have e1 := weight_le (hC.x0 p hp) dx0 dx1
    have e2 := weight_le (hC.x1 p hp) dx0 dx1
    have e3 := weight_le (hC.y0 p hp) dy0 dy1
    have e4 := weight_le (hC.y1 p hp) dy0 dy1
    simp only [w, W, Fin.sum_univ_four, Matrix.cons_val]
    linarith
  · intro k
    fin_cases k <;> simp only [E, Matrix.cons_val, Fin.mk_one, Fin.zero_eta, Fin.reduceFinMk] <;> exact hD _

theorem shrink3 (C : Coef3) (Bs : List Box3) (σ : ℝ) (hC : Definite3 C Bs σ) (p : ℤ × ℤ × ℤ) (hp : Lev3 Bs p)
    (u v : ℤ × ℤ × ℤ → ℝ) (D : ℝ) (hD : ∀ q, |u q - v q| ≤ D) : |upd3 C u p - upd3 C v p| ≤ (1 - share3 C p) * D := by
  obtain ⟨dx0, dx1⟩ := hC.dx
  obtain ⟨dy0, dy1⟩ := hC.dy
  obtain ⟨dz0, dz1⟩ := hC.dz
  let w : Fin 6 → ℝ := ![C.m p * C.xdc p * (1 / C.dx * (1 / C.fx)),
    C.m p * C.xdc (p.1 + 1, p.2.1, p.2.2) * (1 / C.dx * (1 / C.fx)),
    C.m p * C.ydc p * (1 / C.dy * (1 / C.fy)), C.m p * C.ydc (p.1, p.2.1 + 1, p.2.2) * (1 / C.dy * (1 / C.fy)),
    C.m p * C.zdc p * (1 / C.dz * (1 / C.fz)), C.m p * C.zdc (p.1, p.2.1, p.2.2 + 1) * (1 / C.dz * (1 / C.fz))]
  let E : Fin 6 → ℝ := ![u (p.1 - 1, p.2.1, p.2.2) - v (p.1 - 1, p.2.1, p.2.2),
    u (p.1 + 1, p.2.1, p.2.2) - v (p.1 + 1, p.2.1, p.2.2),
    u (p.1, p.2.1 - 1, p.2.2) - v (p.1, p.2.1 - 1, p.2.2), u (p.1, p.2.1 + 1, p.2.2) - v (p.1, p.2.1 + 1, p.2.2),
    u (p.1, p.2.1, p.2.2 - 1) - v (p.1, p.2.1, p.2.2 - 1), u (p.1, p.2.1, p.2.2 + 1) - v (p.1, p.2.1, p.2.2 + 1)]
  let W : ℝ := C.m p * (1 / C.dx * (1 / C.dx) * (C.xdc (p.1 + 1, p.2.1, p.2.2) + C.xdc p) +
    1 / C.dy * (1 / C.dy) * (C.ydc (p.1, p.2.1 + 1, p.2.2) + C.ydc p) +
    1 / C.dz * (1 / C.dz) * (C.zdc (p.1, p.2.1, p.2.2 + 1) + C.zdc p))
  have h := avg w E (u p - v p) W (C.sf p) D σ hC.sign ?_ ?_ (hC.react p hp) (hD p) ?_
  · have hd : (1 : ℝ) / (W - C.sf p) = C.dudr p := rfl
    have h2 : (1 + C.sf p * (1 / (W - C.sf p))) * D = (1 - share3 C p) * D := by
      rw [hd]; unfold share3; ring
    rw [h2, hd] at h
    have h3 : upd3 C u p - upd3 C v p =
        u p - v p + (∑ k, w k * (E k - (u p - v p)) + C.sf p * (u p - v p)) * C.dudr p := by
      unfold upd3 Coef3.levelResidual Coef3.residual Coef3.xflux Coef3.yflux Coef3.zflux
      simp only [w, E, Fin.sum_univ_six, Matrix.cons_val, add_sub_cancel_right, Prod.mk.eta]
      generalize C.dudr p = d
      ring
    rw [h3]
    exact h
  · intro k
    have e1 := weight_nonneg (hC.x0 p hp) dx0 dx1
    have e2 := weight_nonneg (hC.x1 p hp) dx0 dx1
    have e3 := weight_nonneg (hC.y0 p hp) dy0 dy1
    have e4 := weight_nonneg (hC.y1 p hp) dy0 dy1
    have e5 := weight_nonneg (hC.z0 p hp) dz0 dz1
    have e6 := weight_nonneg (hC.z1 p hp) dz0 dz1
    fin_cases k <;> simp only [w, Matrix.cons_val, Fin.mk_one, Fin.zero_eta, Fin.reduceFinMk] <;> rw [← mul_assoc] <;> assumption
  · have e1 := weight_le (hC.x0 p hp) dx0 dx1
    have e2 := weight_le (hC.x1 p hp) dx0 dx1
    have e3 := weight_le (hC.y0 p hp) dy0 dy1
    have e4 := weight_le (hC.y1 p hp) dy0 dy1
    have e5 := weight_le (hC.z0 p hp) dz0 dz1
    have e6 := weight_le (hC.z1 p hp) dz0 dz1
    simp only [w, W, Fin.sum_univ_six, Matrix.cons_val]
    linarith
  · intro k
    fin_cases k <;> simp only [E, Matrix.cons_val, Fin.mk_one, Fin.zero_eta, Fin.reduceFinMk] <;> exact hD _

theorem share2_bounds (C : Coef2) (Bs : List Box2) (σ : ℝ) (hC : Definite2 C Bs σ) (p : ℤ × ℤ) (hp : Lev2 Bs p) :
    0 < share2 C p ∧ share2 C p ≤ 1 ∧ |C.dudr p| * |C.sf p| = share2 C p ∧ C.dudr p ≠ 0 := by
  have hs := hC.react p hp
  have e1 := weight_nonneg (hC.x0 p hp) hC.dx.1 le_rfl
  have e2 := weight_nonneg (hC.x1 p hp) hC.dx.1 le_rfl
  have e3 := weight_nonneg (hC.y0 p hp) hC.dy.1 le_rfl
  have e4 := weight_nonneg (hC.y1 p hp) hC.dy.1 le_rfl
  have hW : 0 ≤ σ * (C.m p * (1 / C.dx * (1 / C.dx) * (C.xdc (p.1 + 1, p.2) + C.xdc p) +
    1 / C.dy * (1 / C.dy) * (C.ydc (p.1, p.2 + 1) + C.ydc p))) := by linarith
  unfold share2 Coef2.dudr
  generalize C.m p * (1 / C.dx * (1 / C.dx) * (C.xdc (p.1 + 1, p.2) + C.xdc p) +
    1 / C.dy * (1 / C.dy) * (C.ydc (p.1, p.2 + 1) + C.ydc p)) = W at hW
  exact share_aux σ W (C.sf p) hC.sign hW hs
where
  share_aux (σ W s : ℝ) (h : σ = 1 ∨ σ = -1) (hW : 0 ≤ σ * W) (hs : σ * s < 0) :
      0 < -(s * (1 / (W - s))) ∧ -(s * (1 / (W - s))) ≤ 1 ∧ |1 / (W - s)| * |s| = -(s * (1 / (W - s))) ∧
        1 / (W - s) ≠ 0 := by
    have e : -(s * (1 / (W - s))) = (-σ * s) / (σ * W - σ * s) := by
      have : σ ≠ 0 := by rcases h with rfl | rfl <;> norm_num
      rw [show σ * W - σ * s = σ * (W - s) by ring, show -σ * s = σ * (-s) by ring, mul_div_mul_left _ _ this]
      ring
    have hT : 0 < σ * W - σ * s := by linarith
    have hne : W - s ≠ 0 := by
      intro h0
      rw [← mul_sub, h0, mul_zero] at hT
      exact lt_irrefl _ hT
    have hpos : 0 < -(s * (1 / (W - s))) := by
      rw [e]
      exact div_pos (by linarith) hT
    refine ⟨hpos, ?_, ?_, one_div_ne_zero hne⟩
    · rw [e, div_le_one hT]
      linarith
    · rw [← abs_mul, mul_comm, ← abs_neg, abs_of_pos hpos]

theorem share3_bounds (C : Coef3) (Bs : List Box3) (σ : ℝ) (hC : Definite3 C Bs σ) (p : ℤ × ℤ × ℤ) (hp : Lev3 Bs p) :
    0 < share3 C p ∧ share3 C p ≤ 1 ∧ |C.dudr p| * |C.sf p| = share3 C p ∧ C.dudr p ≠ 0 := by
  have hs := hC.react p hp
  have e1 := weight_nonneg (hC.x0 p hp) hC.dx.1 le_rfl
  have e2 := weight_nonneg (hC.x1 p hp) hC.dx.1 le_rfl
  have e3 := weight_nonneg (hC.y0 p hp) hC.dy.1 le_rfl
  have e4 := weight_nonneg (hC.y1 p hp) hC.dy.1 le_rfl
  have e5 := weight_nonneg (hC.z0 p hp) hC.dz.1 le_rfl
  have e6 := weight_nonneg (hC.z1 p hp) hC.dz.1 le_rfl
  have hW : 0 ≤ σ * (C.m p * (1 / C.dx * (1 / C.dx) * (C.xdc (p.1 + 1, p.2.1, p.2.2) + C.xdc p) +
    1 / C.dy * (1 / C.dy) * (C.ydc (p.1, p.2.1 + 1, p.2.2) + C.ydc p) +
    1 / C.dz * (1 / C.dz) * (C.zdc (p.1, p.2.1, p.2.2 + 1) + C.zdc p))) := by linarith
  unfold share3 Coef3.dudr
  generalize C.m p * (1 / C.dx * (1 / C.dx) * (C.xdc (p.1 + 1, p.2.1, p.2.2) + C.xdc p) +
    1 / C.dy * (1 / C.dy) * (C.ydc (p.1, p.2.1 + 1, p.2.2) + C.ydc p) +
    1 / C.dz * (1 / C.dz) * (C.zdc (p.1, p.2.1, p.2.2 + 1) + C.zdc p)) = W at hW
  exact share2_bounds.share_aux σ W (C.sf p) hC.sign hW hs

theorem hit2 (C : Coef2) (off : ℤ) (B : Box2) (u : ℤ × ℤ → ℝ) (p : ℤ × ℤ) (hp : p ∈ cells2 B off) :
    (C.colourPass B off u).1 p = upd2 C u p := by
  unfold Coef2.colourPass pass
  rw [pass_fst _ _ _ (nodup_cells2 _ _), if_pos hp]
  rfl

theorem hit3 (C : Coef3) (off : ℤ) (B : Box3) (u : ℤ × ℤ × ℤ → ℝ) (p : ℤ × ℤ × ℤ) (hp : p ∈ cells3 B off) :
    (C.colourPass B off u).1 p = upd3 C u p := by
  unfold Coef3.colourPass pass
  rw [pass_fst _ _ _ (nodup_cells3 _ _), if_pos hp]
  rfl

theorem cover_of {ι : Type} [DecidableEq ι] {inBox : ι → Prop} {r b : List ι} (h : OnceEach inBox r b) (p : ι)
    (hp : inBox p) : (p ∈ r ∨ p ∈ b) ∧ ¬ (p ∈ r ∧ p ∈ b) := by
  have h1 := (h p).1 hp
  rw [visits_append] at h1
  unfold visits at h1
  constructor
  · by_contra hn
    push Not at hn
    rw [List.count_eq_zero_of_not_mem hn.1, List.count_eq_zero_of_not_mem hn.2] at h1
    omega
  · rintro ⟨hr, hb⟩
    have := List.count_pos_iff.2 hr
    have := List.count_pos_iff.2 hb
    omega

theorem smooths2 (C : Coef2) (Bs : List Box2) (σ κ : ℝ) (hC : Definite2 C Bs σ) (hj : ∀ B ∈ Bs, 0 ≤ B.jfirst)
    (hκ : ∀ p, Lev2 Bs p → κ ≤ share2 C p) :
    Smooths inside2 (fun off B u => C.colourPass B off u) Bs (fun off B => cells2 B off) (upd2 C) (1 - κ) where
  hit off B u p hp := hit2 C off B u p hp
  miss off B u p hp := c43_untouched C B off u p (Or.inl hp)
  cover B hB p hp := (cover_of ((c43_once2 B).2 (Or.inl (hj B hB))) p hp).1
  shrink p hp u v D hD := (shrink2 C Bs σ hC p hp u v D hD).trans
    (mul_le_mul_of_nonneg_right (by linarith [hκ p hp]) ((abs_nonneg _).trans (hD p)))

theorem smooths3 (C : Coef3) (Bs : List Box3) (σ κ : ℝ) (hC : Definite3 C Bs σ)
    (hj : ∀ B ∈ Bs, 0 ≤ B.ifirst + B.jfirst + B.kfirst) (hκ : ∀ p, Lev3 Bs p → κ ≤ share3 C p) :
    Smooths inside3 (fun off B u => C.colourPass B off u) Bs (fun off B => cells3 B off) (upd3 C) (1 - κ) where
  hit off B u p hp := hit3 C off B u p hp
  miss off B u p hp := pass3_untouched C B off u p (Or.inl hp)
  cover B hB p hp := (cover_of (c43_once3_partial B (hj B hB)) p hp).1
  shrink p hp u v D hD := (shrink3 C Bs σ hC p hp u v D hD).trans
    (mul_le_mul_of_nonneg_right (by linarith [hκ p hp]) ((abs_nonneg _).trans (hD p)))

theorem solves2_fixed {C : Coef2} {fill : (ℤ × ℤ → ℝ) → ℤ × ℤ → ℝ} {Bs : List Box2} (hf : GoodFill inside2 Bs fill)
    {v : ℤ × ℤ → ℝ} (hv : Solves2 C fill Bs v) (p : ℤ × ℤ) (hp : Lev2 Bs p) : upd2 C (fill v) p = v p := by
  unfold upd2
  rw [hv p hp, hf.keep _ _ hp]
  ring

theorem solves3_fixed {C : Coef3} {fill : (ℤ × ℤ × ℤ → ℝ) → ℤ × ℤ × ℤ → ℝ} {Bs : List Box3}
    (hf : GoodFill inside3 Bs fill) {v : ℤ × ℤ × ℤ → ℝ} (hv : Solves3 C fill Bs v) (p : ℤ × ℤ × ℤ) (hp : Lev3 Bs p) :
    upd3 C (fill v) p = v p := by
  unfold upd3
  rw [hv p hp, hf.keep _ _ hp]
  ring

open Classical in
/-- The cells of a level. -/
noncomputable def levelCells2 (Bs : List Box2) : Finset (ℤ × ℤ) :=
  Bs.toFinset.biUnion fun B => Finset.Icc B.ifirst B.ilast ×ˢ Finset.Icc B.jfirst B.jlast
open Classical in
/-- The cells of a level. -/
noncomputable def levelCells3 (Bs : List Box3) : Finset (ℤ × ℤ × ℤ) :=
  Bs.toFinset.biUnion fun B => Finset.Icc B.ifirst B.ilast ×ˢ Finset.Icc B.jfirst B.jlast ×ˢ Finset.Icc B.kfirst B.klast

theorem mem_levelCells2 (Bs : List Box2) (p : ℤ × ℤ) : p ∈ levelCells2 Bs ↔ Lev2 Bs p := by
  unfold levelCells2 Lev2 OnLevel inside2
  simp only [Finset.mem_biUnion, List.mem_toFinset, Finset.mem_product, Finset.mem_Icc, and_assoc]

theorem mem_levelCells3 (Bs : List Box3) (p : ℤ × ℤ × ℤ) : p ∈ levelCells3 Bs ↔ Lev3 Bs p := by
  unfold levelCells3 Lev3 OnLevel inside3
  simp only [Finset.mem_biUnion, List.mem_toFinset, Finset.mem_product, Finset.mem_Icc, and_assoc]

theorem floor_of {ι Box : Type} {inside : Box → ι → Prop} {Bs : List Box} (S : Finset ι)
    (hS : ∀ p, p ∈ S ↔ OnLevel inside Bs p) (f : ι → ℝ) (hf : ∀ p, OnLevel inside Bs p → 0 < f p ∧ f p ≤ 1) :
    ∃ κ, 0 < κ ∧ κ ≤ 1 ∧ ∀ p, OnLevel inside Bs p → κ ≤ f p := by
  obtain ⟨D, hD, h⟩ := bounded_of S hS fun p => 1 / f p
  refine ⟨1 / (D + 1), by positivity, ?_, fun p hp => ?_⟩
  · rw [div_le_one (by linarith)]; linarith
  · have h1 := h p hp
    obtain ⟨h2, _⟩ := hf p hp
    rw [abs_of_pos (by positivity)] at h1
    rw [div_le_iff₀ h2] at h1
    rw [div_le_iff₀ (by linarith)]
    nlinarith

/-! ## Convergence -/

/-- **C114**: after any run of the smoothing loop the distance to the solution has been multiplied by at most
`(1-κ)^k`, where `k` is the number of sweeps done and `κ` the smallest weight of the scalar field in the diagonal; the
patches may be arranged in any way, and the loop does all its sweeps when no tolerance is given. -/
theorem c114_converges2 (C : Coef2) (fill : (ℤ × ℤ → ℝ) → ℤ × ℤ → ℝ) (Bs : List Box2) (σ κ tol D : ℝ)
    (hC : Definite2 C Bs σ) (hf : GoodFill inside2 Bs fill) (hj : ∀ B ∈ Bs, 0 ≤ B.jfirst) (hκ0 : 0 ≤ κ) (hκ1 : κ ≤ 1)
    (hκ : ∀ p, Lev2 Bs p → κ ≤ share2 C p) (v u : ℤ × ℤ → ℝ) (hv : Solves2 C fill Bs v)
    (hD : ∀ p, Lev2 Bs p → |u p - v p| ≤ D) (n : ℕ) :
    (∀ p, Lev2 Bs p → |(smooth2 C fill tol Bs n u).1 p - v p| ≤ (1 - κ) ^ (smooth2 C fill tol Bs n u).2 * D) ∧
    (smooth2 C fill tol Bs n u).2 ≤ n ∧ (tol < 0 → (smooth2 C fill tol Bs n u).2 = n) := by
  have hs := smooths2 C Bs σ κ hC hj hκ
  obtain ⟨h1, h2, h3⟩ := smooth_iter (inside := inside2) (cp := fun off B u => C.colourPass B off u) (fill := fill)
    (Bs := Bs) tol n u
  refine ⟨fun p hp => ?_, h2, h3⟩
  have h := iter_close hf hs (by linarith) (by linarith) (smooth2 C fill tol Bs n u).2 u v D hD p hp
  rw [iter_fixed hf hs (by linarith) (by linarith) v (solves2_fixed hf hv) _ p hp] at h
  unfold smooth2 at h ⊢
  rw [h1]
  exact h

/-- **C114**, 3D. -/
theorem c114_converges3 (C : Coef3) (fill : (ℤ × ℤ × ℤ → ℝ) → ℤ × ℤ × ℤ → ℝ) (Bs : List Box3) (σ κ tol D : ℝ)
    (hC : Definite3 C Bs σ) (hf : GoodFill inside3 Bs fill) (hj : ∀ B ∈ Bs, 0 ≤ B.ifirst + B.jfirst + B.kfirst)
    (hκ0 : 0 ≤ κ) (hκ1 : κ ≤ 1)
    (hκ : ∀ p, Lev3 Bs p → κ ≤ share3 C p) (v u : ℤ × ℤ × ℤ → ℝ) (hv : Solves3 C fill Bs v)
    (hD : ∀ p, Lev3 Bs p → |u p - v p| ≤ D) (n : ℕ) :
    (∀ p, Lev3 Bs p → |(smooth3 C fill tol Bs n u).1 p - v p| ≤ (1 - κ) ^ (smooth3 C fill tol Bs n u).2 * D) ∧
    (smooth3 C fill tol Bs n u).2 ≤ n ∧ (tol < 0 → (smooth3 C fill tol Bs n u).2 = n) := by
  have hs := smooths3 C Bs σ κ hC hj hκ
  obtain ⟨h1, h2, h3⟩ := smooth_iter (inside := inside3) (cp := fun off B u => C.colourPass B off u) (fill := fill)
    (Bs := Bs) tol n u
  refine ⟨fun p hp => ?_, h2, h3⟩
  have h := iter_close hf hs (by linarith) (by linarith) (smooth3 C fill tol Bs n u).2 u v D hD p hp
  rw [iter_fixed hf hs (by linarith) (by linarith) v (solves3_fixed hf hv) _ p hp] at h
  unfold smooth3 at h ⊢
  rw [h1]
  exact h

/-- **C114**: the equations of a level have one solution. -/
theorem c114_solution2 (C : Coef2) (fill : (ℤ × ℤ → ℝ) → ℤ × ℤ → ℝ) (Bs : List Box2) (σ : ℝ)
    (hC : Definite2 C Bs σ) (hf : GoodFill inside2 Bs fill) :
    ∃ v, Solves2 C fill Bs v ∧ ∀ v', Solves2 C fill Bs v' → ∀ p, Lev2 Bs p → v' p = v p := by
  obtain ⟨κ, h0, h1, hκ⟩ := floor_of (levelCells2 Bs) (mem_levelCells2 Bs) (share2 C) fun p hp =>
    ⟨(share2_bounds C Bs σ hC p hp).1, (share2_bounds C Bs σ hC p hp).2.1⟩
  obtain ⟨v, hv⟩ := exists_fixed (upd := upd2 C) (ρ := 1 - κ) (levelCells2 Bs) (mem_levelCells2 Bs) hf (by linarith)
    (by linarith) fun p hp u v D hD => (shrink2 C Bs σ hC p hp u v D hD).trans
      (mul_le_mul_of_nonneg_right (by linarith [hκ p hp]) ((abs_nonneg _).trans (hD p)))
  refine ⟨v, fun p hp => ?_, fun v' hv' p hp => ?_⟩
  · have h := hv p hp
    unfold upd2 at h
    rw [hf.keep _ _ hp] at h
    have h2 : C.levelResidual (fill v) p * C.dudr p = 0 := by linarith
    exact (mul_eq_zero.1 h2).resolve_right (share2_bounds C Bs σ hC p hp).2.2.2
  · obtain ⟨D, _, hD⟩ := bounded_of (levelCells2 Bs) (mem_levelCells2 Bs) fun p => v' p - v p
    have h := gap_bound hf v v' hv (share2 C) κ 0 D h0 h1 hκ le_rfl (shrink2 C Bs σ hC) hD
      (fun q hq => by rw [solves2_fixed hf hv' q hq]; simp) p hp
    exact sub_eq_zero.1 (abs_eq_zero.1 (le_antisymm h (abs_nonneg _)))

/-- **C114**, 3D. -/
theorem c114_solution3 (C : Coef3) (fill : (ℤ × ℤ × ℤ → ℝ) → ℤ × ℤ × ℤ → ℝ) (Bs : List Box3) (σ : ℝ)
    (hC : Definite3 C Bs σ) (hf : GoodFill inside3 Bs fill) :
    ∃ v, Solves3 C fill Bs v ∧ ∀ v', Solves3 C fill Bs v' → ∀ p, Lev3 Bs p → v' p = v p := by
  obtain ⟨κ, h0, h1, hκ⟩ := floor_of (levelCells3 Bs) (mem_levelCells3 Bs) (share3 C) fun p hp =>
    ⟨(share3_bounds C Bs σ hC p hp).1, (share3_bounds C Bs σ hC p hp).2.1⟩
  obtain ⟨v, hv⟩ := exists_fixed (upd := upd3 C) (ρ := 1 - κ) (levelCells3 Bs) (mem_levelCells3 Bs) hf (by linarith)
    (by linarith) fun p hp u v D hD => (shrink3 C Bs σ hC p hp u v D hD).trans
      (mul_le_mul_of_nonneg_right (by linarith [hκ p hp]) ((abs_nonneg _).trans (hD p)))
  refine ⟨v, fun p hp => ?_, fun v' hv' p hp => ?_⟩
  · have h := hv p hp
    unfold upd3 at h
    rw [hf.keep _ _ hp] at h
    have h2 : C.levelResidual (fill v) p * C.dudr p = 0 := by linarith
    exact (mul_eq_zero.1 h2).resolve_right (share3_bounds C Bs σ hC p hp).2.2.2
  · obtain ⟨D, _, hD⟩ := bounded_of (levelCells3 Bs) (mem_levelCells3 Bs) fun p => v' p - v p
    have h := gap_bound hf v v' hv (share3 C) κ 0 D h0 h1 hκ le_rfl (shrink3 C Bs σ hC) hD
      (fun q hq => by rw [solves3_fixed hf hv' q hq]; simp) p hp
    exact sub_eq_zero.1 (abs_eq_zero.1 (le_antisymm h (abs_nonneg _)))

/-- **C114**: from any starting values, enough sweeps bring every cell of the level as close to the solution as
wanted. -/
theorem c114_limit2 (C : Coef2) (fill : (ℤ × ℤ → ℝ) → ℤ × ℤ → ℝ) (Bs : List Box2) (σ : ℝ)
    (hC : Definite2 C Bs σ) (hf : GoodFill inside2 Bs fill) (hj : ∀ B ∈ Bs, 0 ≤ B.jfirst) (v u : ℤ × ℤ → ℝ)
    (hv : Solves2 C fill Bs v) (ε : ℝ) (hε : 0 < ε) :
    ∃ N, ∀ n ≥ N, ∀ p, Lev2 Bs p → |(smooth2 C fill (-1) Bs n u).1 p - v p| < ε := by
  obtain ⟨κ, h0, h1, hκ⟩ := floor_of (levelCells2 Bs) (mem_levelCells2 Bs) (share2 C) fun p hp =>
    ⟨(share2_bounds C Bs σ hC p hp).1, (share2_bounds C Bs σ hC p hp).2.1⟩
  obtain ⟨D, hD0, hD⟩ := bounded_of (levelCells2 Bs) (mem_levelCells2 Bs) fun p => u p - v p
  obtain ⟨N, hN⟩ := exists_pow_lt_of_lt_one (show 0 < ε / (D + 1) by positivity) (show 1 - κ < 1 by linarith)
  refine ⟨N, fun n hn p hp => ?_⟩
  obtain ⟨h2, _, h3⟩ := c114_converges2 C fill Bs σ κ (-1) D hC hf hj h0.le h1 hκ v u hv hD n
  have h4 := h2 p hp
  rw [h3 (by norm_num)] at h4
  have h5 : (1 - κ) ^ n ≤ (1 - κ) ^ N := pow_le_pow_of_le_one (by linarith) (by linarith) hn
  have h6 : (1 - κ) ^ n * D ≤ ε / (D + 1) * D := mul_le_mul_of_nonneg_right (h5.trans hN.le) hD0
  have h7 : ε / (D + 1) * D < ε := by
    rw [div_mul_eq_mul_div, div_lt_iff₀ (by linarith)]
    nlinarith
  linarith

/-- **C114**, 3D. -/
theorem c114_limit3 (C : Coef3) (fill : (ℤ × ℤ × ℤ → ℝ) → ℤ × ℤ × ℤ → ℝ) (Bs : List Box3) (σ : ℝ)
    (hC : Definite3 C Bs σ) (hf : GoodFill inside3 Bs fill) (hj : ∀ B ∈ Bs, 0 ≤ B.ifirst + B.jfirst + B.kfirst)
    (v u : ℤ × ℤ × ℤ → ℝ) (hv : Solves3 C fill Bs v) (ε : ℝ) (hε : 0 < ε) :
    ∃ N, ∀ n ≥ N, ∀ p, Lev3 Bs p → |(smooth3 C fill (-1) Bs n u).1 p - v p| < ε := by
  obtain ⟨κ, h0, h1, hκ⟩ := floor_of (levelCells3 Bs) (mem_levelCells3 Bs) (share3 C) fun p hp =>
    ⟨(share3_bounds C Bs σ hC p hp).1, (share3_bounds C Bs σ hC p hp).2.1⟩
  obtain ⟨D, hD0, hD⟩ := bounded_of (levelCells3 Bs) (mem_levelCells3 Bs) fun p => u p - v p
  obtain ⟨N, hN⟩ := exists_pow_lt_of_lt_one (show 0 < ε / (D + 1) by positivity) (show 1 - κ < 1 by linarith)
  refine ⟨N, fun n hn p hp => ?_⟩
  obtain ⟨h2, _, h3⟩ := c114_converges3 C fill Bs σ κ (-1) D hC hf hj h0.le h1 hκ v u hv hD n
  have h4 := h2 p hp
  rw [h3 (by norm_num)] at h4
  have h5 : (1 - κ) ^ n ≤ (1 - κ) ^ N := pow_le_pow_of_le_one (by linarith) (by linarith) hn
  have h6 : (1 - κ) ^ n * D ≤ ε / (D + 1) * D := mul_le_mul_of_nonneg_right (h5.trans hN.le) hD0
  have h7 : ε / (D + 1) * D < ε := by
    rw [div_mul_eq_mul_div, div_lt_iff₀ (by linarith)]
    nlinarith
  linarith

/-- **C114**: the rate in terms of the coefficients: scalar field at least `c` in size, diffusion at most `d`. -/
theorem c114_rate2 (C : Coef2) (Bs : List Box2) (σ c d : ℝ) (hC : Definite2 C Bs σ) (hc : 0 < c) (p : ℤ × ℤ)
    (hp : Lev2 Bs p) (hs : c ≤ |C.sf p|) (h1 : σ * (C.m p * C.xdc p) ≤ d) (h2 : σ * (C.m p * C.xdc (p.1 + 1, p.2)) ≤ d)
    (h3 : σ * (C.m p * C.ydc p) ≤ d) (h4 : σ * (C.m p * C.ydc (p.1, p.2 + 1)) ≤ d) :
    c / (c + 2 * d / C.dx ^ 2 + 2 * d / C.dy ^ 2) ≤ share2 C p := by
  have hs' := hC.react p hp
  have e1 := weight_nonneg (hC.x0 p hp) hC.dx.1 le_rfl
  have e2 := weight_nonneg (hC.x1 p hp) hC.dx.1 le_rfl
  have e3 := weight_nonneg (hC.y0 p hp) hC.dy.1 le_rfl
  have e4 := weight_nonneg (hC.y1 p hp) hC.dy.1 le_rfl
  have hdx := hC.dx.1
  have hdy := hC.dy.1
  have hd : 0 ≤ d := (hC.x0 p hp).trans h1
  have kx : (0 : ℝ) ≤ 1 / C.dx * (1 / C.dx) := by positivity
  have ky : (0 : ℝ) ≤ 1 / C.dy * (1 / C.dy) := by positivity
  have f1 := mul_le_mul_of_nonneg_right h1 kx
  have f2 := mul_le_mul_of_nonneg_right h2 kx
  have f3 := mul_le_mul_of_nonneg_right h3 ky
  have f4 := mul_le_mul_of_nonneg_right h4 ky
  have hW : 0 ≤ σ * (C.m p * (1 / C.dx * (1 / C.dx) * (C.xdc (p.1 + 1, p.2) + C.xdc p) +
    1 / C.dy * (1 / C.dy) * (C.ydc (p.1, p.2 + 1) + C.ydc p))) := by linarith
  have gx : d * (1 / C.dx * (1 / C.dx)) + d * (1 / C.dx * (1 / C.dx)) = 2 * d / C.dx ^ 2 := by field_simp; ring
  have gy : d * (1 / C.dy * (1 / C.dy)) + d * (1 / C.dy * (1 / C.dy)) = 2 * d / C.dy ^ 2 := by field_simp; ring
  have hW2 : σ * (C.m p * (1 / C.dx * (1 / C.dx) * (C.xdc (p.1 + 1, p.2) + C.xdc p) +
    1 / C.dy * (1 / C.dy) * (C.ydc (p.1, p.2 + 1) + C.ydc p))) ≤ 2 * d / C.dx ^ 2 + 2 * d / C.dy ^ 2 := by
    rw [← gx, ← gy]; linarith
  unfold share2 Coef2.dudr
  generalize C.m p * (1 / C.dx * (1 / C.dx) * (C.xdc (p.1 + 1, p.2) + C.xdc p) +
    1 / C.dy * (1 / C.dy) * (C.ydc (p.1, p.2 + 1) + C.ydc p)) = W at hW hW2
  have hσ : |C.sf p| = -(σ * C.sf p) := by
    rw [← abs_of_neg hs', abs_mul]
    rcases hC.sign with h | h <;> rw [h] <;> simp
  rw [hσ] at hs
  have e : -(C.sf p * (1 / (W - C.sf p))) = (-(σ * C.sf p)) / (σ * W - σ * C.sf p) := by
    have : σ ≠ 0 := by rcases hC.sign with h | h <;> rw [h] <;> norm_num
    rw [show σ * W - σ * C.sf p = σ * (W - C.sf p) by ring, show -(σ * C.sf p) = σ * (-C.sf p) by ring,
      mul_div_mul_left _ _ this]
    ring
  rw [e]
  have hK : c + 2 * d / C.dx ^ 2 + 2 * d / C.dy ^ 2 = c + (2 * d / C.dx ^ 2 + 2 * d / C.dy ^ 2) := by ring
  rw [hK]
  generalize 2 * d / C.dx ^ 2 + 2 * d / C.dy ^ 2 = K at hW2
  rw [div_le_div_iff₀ (by linarith) (by linarith)]
  nlinarith

/-! ## Residuals -/

/-- **C114**: values whose residuals are all at most `τ` are within `τ / c` of the solution when the scalar field is at
least `c` in size. -/
theorem c114_error_of_residual2 (C : Coef2) (fill : (ℤ × ℤ → ℝ) → ℤ × ℤ → ℝ) (Bs : List Box2) (σ c τ : ℝ)
    (hC : Definite2 C Bs σ) (hf : GoodFill inside2 Bs fill) (hc : 0 < c) (hs : ∀ p, Lev2 Bs p → c ≤ |C.sf p|)
    (v u : ℤ × ℤ → ℝ) (hv : Solves2 C fill Bs v) (hτ : ∀ p, Lev2 Bs p → |C.levelResidual (fill u) p| ≤ τ) (p : ℤ × ℤ)
    (hp : Lev2 Bs p) : |u p - v p| ≤ τ / c := by
  obtain ⟨κ, h0, h1, hκ⟩ := floor_of (levelCells2 Bs) (mem_levelCells2 Bs) (share2 C) fun p hp =>
    ⟨(share2_bounds C Bs σ hC p hp).1, (share2_bounds C Bs σ hC p hp).2.1⟩
  obtain ⟨D, hD0, hD⟩ := bounded_of (levelCells2 Bs) (mem_levelCells2 Bs) fun p => u p - v p
  have hτ0 : 0 ≤ τ := (abs_nonneg _).trans (hτ p hp)
  refine gap_bound hf v u (solves2_fixed hf hv) (share2 C) κ (τ / c) D h0 h1 hκ (by positivity) (shrink2 C Bs σ hC) hD
    (fun q hq => ?_) p hp
  obtain ⟨_, _, h3, _⟩ := share2_bounds C Bs σ hC q hq
  unfold upd2
  rw [hf.keep _ _ hq, show u q - C.levelResidual (fill u) q * C.dudr q - u q = -(C.levelResidual (fill u) q * C.dudr q) by
    ring, abs_neg, abs_mul, ← h3]
  rw [mul_div_assoc', le_div_iff₀ hc]
  have h4 := hτ q hq
  have h5 := hs q hq
  have h6 := abs_nonneg (C.dudr q)
  calc |C.levelResidual (fill u) q| * |C.dudr q| * c ≤ τ * |C.dudr q| * |C.sf q| := by gcongr
    _ = _ := by ring

/-- **C114**, 3D. -/
theorem c114_error_of_residual3 (C : Coef3) (fill : (ℤ × ℤ × ℤ → ℝ) → ℤ × ℤ × ℤ → ℝ) (Bs : List Box3) (σ c τ : ℝ)
    (hC : Definite3 C Bs σ) (hf : GoodFill inside3 Bs fill) (hc : 0 < c) (hs : ∀ p, Lev3 Bs p → c ≤ |C.sf p|)
    (v u : ℤ × ℤ × ℤ → ℝ) (hv : Solves3 C fill Bs v) (hτ : ∀ p, Lev3 Bs p → |C.levelResidual (fill u) p| ≤ τ)
    (p : ℤ × ℤ × ℤ) (hp : Lev3 Bs p) : |u p - v p| ≤ τ / c := by
  obtain ⟨κ, h0, h1, hκ⟩ := floor_of (levelCells3 Bs) (mem_levelCells3 Bs) (share3 C) fun p hp =>
    ⟨(share3_bounds C Bs σ hC p hp).1, (share3_bounds C Bs σ hC p hp).2.1⟩
  obtain ⟨D, hD0, hD⟩ := bounded_of (levelCells3 Bs) (mem_levelCells3 Bs) fun p => u p - v p
  have hτ0 : 0 ≤ τ := (abs_nonneg _).trans (hτ p hp)
  refine gap_bound hf v u (solves3_fixed hf hv) (share3 C) κ (τ / c) D h0 h1 hκ (by positivity) (shrink3 C Bs σ hC) hD
    (fun q hq => ?_) p hp
  obtain ⟨_, _, h3, _⟩ := share3_bounds C Bs σ hC q hq
  unfold upd3
  rw [hf.keep _ _ hq, show u q - C.levelResidual (fill u) q * C.dudr q - u q = -(C.levelResidual (fill u) q * C.dudr q) by
    ring, abs_neg, abs_mul, ← h3]
  rw [mul_div_assoc', le_div_iff₀ hc]
  have h4 := hτ q hq
  have h5 := hs q hq
  have h6 := abs_nonneg (C.dudr q)
  calc |C.levelResidual (fill u) q| * |C.dudr q| * c ≤ τ * |C.dudr q| * |C.sf q| := by gcongr
    _ = _ := by ring

/-! ## Stopping on the tolerance -/

theorem smooth_stop {ι Box : Type} {inside : Box → ι → Prop} [∀ B p, Decidable (inside B p)]
    {cp : ℤ → Box → (ι → ℝ) → (ι → ℝ) × ℝ} {fill : (ι → ℝ) → ι → ℝ} {Bs : List Box} (tol : ℝ) (n : ℕ) (u : ι → ℝ)
    (h : (smooth inside cp fill tol Bs n u).2 < n) :
    ∃ w, (smooth inside cp fill tol Bs n u).1 = (sweep inside cp fill Bs w).1 ∧ (sweep inside cp fill Bs w).2 ≤ tol ∧
      0 ≤ tol := by
  induction n generalizing u with
  | zero => exact absurd h (by simp)
  | succ n ih =>
    by_cases hc : 0 ≤ tol ∧ (sweep inside cp fill Bs u).2 ≤ tol
    · refine ⟨u, ?_, hc.2, hc.1⟩
      simp only [smooth, if_pos hc]
    · have he : smooth inside cp fill tol Bs (n + 1) u =
          ((smooth inside cp fill tol Bs n (sweep inside cp fill Bs u).1).1,
            (smooth inside cp fill tol Bs n (sweep inside cp fill Bs u).1).2 + 1) := by
        simp only [smooth, if_neg hc]
      rw [he] at h ⊢
      exact ih _ (by simpa using h)

/-- **C114** for a level of one patch: a loop that stopped before its last sweep is within
`(1-κ) · tolerance / (κ c)` of the solution.  With several patches this fails, see below. -/
theorem c114_stop_partial (C : Coef2) (fill : (ℤ × ℤ → ℝ) → ℤ × ℤ → ℝ) (B : Box2) (σ κ c tol : ℝ)
    (hC : Definite2 C [B] σ) (hf : GoodFill inside2 [B] fill) (hj : 0 ≤ B.jfirst) (hκ0 : 0 < κ) (hκ1 : κ ≤ 1)
    (hκ : ∀ p, Lev2 [B] p → κ ≤ share2 C p) (hc : 0 < c) (hs : ∀ p, Lev2 [B] p → c ≤ |C.sf p|)
    (v u : ℤ × ℤ → ℝ) (hv : Solves2 C fill [B] v) (n : ℕ) (hn : (smooth2 C fill tol [B] n u).2 < n) (p : ℤ × ℤ)
    (hp : Lev2 [B] p) : |(smooth2 C fill tol [B] n u).1 p - v p| ≤ (1 - κ) * (tol / c / κ) := by
  have hsm := smooths2 C [B] σ κ hC (by simpa using hj) hκ
  obtain ⟨w, h1, h2, h3⟩ := smooth_stop tol n u hn
  obtain ⟨D, hD0, hD⟩ := bounded_of (levelCells2 [B]) (mem_levelCells2 [B]) fun p => w p - v p
  have hb := stop_bound hf hsm (by linarith) v (solves2_fixed hf hv) w (tol / c) D hD ?_ (by linarith) p hp
  · unfold smooth2
    rw [h1]
    rw [sub_sub_cancel] at hb
    exact hb
  · intro q hq
    have hlev : ∀ x, Lev2 [B] x → inside2 B x := by
      rintro x ⟨B', hB', hx⟩
      rw [List.mem_singleton.1 hB'] at hx
      exact hx
    have hin := hlev q hq
    have hval : ∀ off (y : ℤ × ℤ → ℝ), (levelPass inside2 (fun B u => C.colourPass B off u) fill [B] y).1 q =
        (C.colourPass B off (fill y)).1 q := fun off y => by
      show (if inside2 B q then _ else _) = _
      exact if_pos hin
    have hmax : ∀ off (y : ℤ × ℤ → ℝ), (levelPass inside2 (fun B u => C.colourPass B off u) fill [B] y).2 =
        (C.colourPass B off (fill y)).2 := fun off y => rfl
    have small : ∀ y : ℤ × ℤ → ℝ, |C.levelResidual (fill y) q| ≤ tol → |upd2 C (fill y) q - y q| ≤ tol / c := by
      intro y hy
      obtain ⟨_, hle, heq, _⟩ := share2_bounds C [B] σ hC q hq
      unfold upd2
      rw [hf.keep _ _ hq, show y q - C.levelResidual (fill y) q * C.dudr q - y q =
        -(C.levelResidual (fill y) q * C.dudr q) by ring, abs_neg, abs_mul, le_div_iff₀ hc]
      have h6 := abs_nonneg (C.dudr q)
      have h7 : |C.dudr q| * c ≤ 1 := (mul_le_mul_of_nonneg_left (hs q hq) h6).trans (heq.trans_le hle)
      calc |C.levelResidual (fill y) q| * |C.dudr q| * c = |C.levelResidual (fill y) q| * (|C.dudr q| * c) := by ring
        _ ≤ tol * 1 := mul_le_mul hy h7 (by positivity) h3
        _ = tol := mul_one _
    have hred : (C.colourPass B 0 (fill w)).2 ≤ tol := (le_max_left _ _).trans h2
    have hblk : (C.colourPass B 1 (fill (levelPass inside2 (fun B u => C.colourPass B 0 u) fill [B] w).1)).2 ≤ tol :=
      (le_max_right _ _).trans h2
    obtain ⟨hcov, hdis⟩ := cover_of ((c43_once2 B).2 (Or.inl hj)) q hin
    show |(levelPass inside2 (fun B u => C.colourPass B 1 u) fill [B]
      (levelPass inside2 (fun B u => C.colourPass B 0 u) fill [B] w).1).1 q - w q| ≤ tol / c
    rw [hval 1]
    by_cases hm : q ∈ cells2 B 1
    · have hm0 : q ∉ cells2 B 0 := fun h => hdis ⟨h, hm⟩
      rw [hit2 C 1 B _ q hm]
      have hr : (levelPass inside2 (fun B u => C.colourPass B 0 u) fill [B] w).1 q = w q := by
        rw [hval 0, c43_untouched C B 0 _ q (Or.inl hm0), hf.keep _ _ hq]
      have := small _ (((c43_maxres C B 1 _).1 q hm).trans hblk)
      rwa [hr] at this
    · have hm0 := hcov.resolve_right hm
      rw [c43_untouched C B 1 _ q (Or.inl hm), hf.keep _ _ hq, hval 0, hit2 C 0 B _ q hm0]
      exact small _ (((c43_maxres C B 0 _).1 q hm0).trans hred)

/-- **C114** is violated for several patches: the loop stops as soon as the residuals of the last patch are within the
tolerance, whatever the residuals on the others. -/
theorem c114_violation_last_patch (C : Coef2) (fill : (ℤ × ℤ → ℝ) → ℤ × ℤ → ℝ) (Bs : List Box2) (B : Box2) (tol : ℝ)
    (ht : 0 ≤ tol) (u : ℤ × ℤ → ℝ) (n : ℕ) :
    (smooth2 C fill tol (Bs ++ [B]) (n + 1) u).2 = 1 ∨ n ≠ 0 ∧
      (tol < (C.colourPass B 0 (fill u)).2 ∨
        tol < (C.colourPass B 1 (fill (levelPass inside2 (fun B u => C.colourPass B 0 u) fill (Bs ++ [B]) u).1)).2) := by
  by_cases h : (sweep inside2 (fun off B u => C.colourPass B off u) fill (Bs ++ [B]) u).2 ≤ tol
  · left
    unfold smooth2
    simp only [smooth, if_pos (And.intro ht h)]
  · rcases Nat.eq_zero_or_pos n with rfl | hn
    · left
      unfold smooth2
      simp only [smooth, if_neg (fun hh : 0 ≤ tol ∧ _ ≤ tol => h hh.2)]
    · right
      refine ⟨by omega, ?_⟩
      unfold sweep at h
      simp only [levelPass_snoc, max_le_iff, not_and_or, not_le] at h
      simpa only [levelPass_snoc] using h

/-- Ghost values zero. -/
noncomputable def zeroFill (Bs : List Box2) (u : ℤ × ℤ → ℝ) (p : ℤ × ℤ) : ℝ :=
  if p ∈ levelCells2 Bs then u p else 0

theorem zeroFill_good (Bs : List Box2) : GoodFill inside2 Bs (zeroFill Bs) where
  keep u p hp := if_pos ((mem_levelCells2 Bs p).2 hp)
  close u v D h0 hD q := by
    unfold zeroFill
    by_cases h : q ∈ levelCells2 Bs
    · rw [if_pos h, if_pos h]
      exact hD q ((mem_levelCells2 Bs q).1 h)
    · rw [if_neg h, if_neg h]
      simpa using h0

/-- Ghost values of a zero-flux boundary around one patch: the value of the nearest cell. -/
def noFluxFill (B : Box2) (u : ℤ × ℤ → ℝ) (p : ℤ × ℤ) : ℝ :=
  u (max B.ifirst (min B.ilast p.1), max B.jfirst (min B.jlast p.2))

/-- A fill that satisfies what is assumed of the ghost fill, with ghost values that depend on the level. -/
theorem noFluxFill_good (B : Box2) (hi : B.ifirst ≤ B.ilast) (hj : B.jfirst ≤ B.jlast) : GoodFill inside2 [B] (noFluxFill B) where
  keep u p hp := by
    obtain ⟨B', hB', h1, h2, h3, h4⟩ := hp
    rw [List.mem_singleton.1 hB'] at h1 h2 h3 h4
    unfold noFluxFill
    rw [min_eq_right h2, max_eq_right h1, min_eq_right h4, max_eq_right h3]
  close u v D h0 hD q := by
    refine hD _ ⟨B, by simp, ?_⟩
    unfold inside2
    refine ⟨le_max_left _ _, max_le hi (min_le_left _ _), le_max_left _ _, max_le hj (min_le_left _ _)⟩

/-- Two patches far from each other, diffusion along `x`. -/
noncomputable def exC : Coef2 :=
  { dx := 1, dy := 1, fx := 1, fy := 1, xdc := fun _ => 1, ydc := fun _ => 0, m := fun _ => 1, sf := fun _ => -1,
    rhs := fun _ => 0 }
def exA : Box2 := ⟨0, 1, 0, 0⟩
def exB : Box2 := ⟨10, 10, 0, 0⟩

theorem exDefinite (Bs : List Box2) : Definite2 exC Bs 1 := by
  constructor <;> simp [exC]

theorem exC_upd (u : ℤ × ℤ → ℝ) (p : ℤ × ℤ) : upd2 exC u p = (u (p.1 - 1, p.2) + u (p.1 + 1, p.2)) / 3 := by
  unfold upd2 Coef2.levelResidual Coef2.residual Coef2.xflux Coef2.yflux Coef2.dudr
  simp only [exC, add_sub_cancel_right, Prod.mk.eta]
  ring

theorem exC_res (u : ℤ × ℤ → ℝ) (p : ℤ × ℤ) :
    exC.levelResidual u p = 3 * u p - u (p.1 - 1, p.2) - u (p.1 + 1, p.2) := by
  unfold Coef2.levelResidual Coef2.residual Coef2.xflux Coef2.yflux
  simp only [exC, add_sub_cancel_right, Prod.mk.eta]
  ring

theorem exB_res (u : ℤ × ℤ → ℝ) (hu : u (10, 0) = 0) (off : ℤ) (hoff : off = 0 ∨ off = 1) :
    (exC.colourPass exB off (zeroFill [exA, exB] u)).2 = 0 := by
  rcases (c43_maxres exC exB off (zeroFill [exA, exB] u)).2 with h | ⟨p, hp, h⟩
  · exact h
  · rw [h]
    rw [c43_colour2 exB (by norm_num [exB]) off hoff] at hp
    obtain ⟨⟨h1, h2, h3, h4⟩, _⟩ := hp
    simp only [exB] at h1 h2 h3 h4
    have hp : p = (10, 0) := Prod.ext (by simp; omega) (by simp; omega)
    rw [hp, exC_res]
    have z : ∀ q : ℤ × ℤ, (q.1 = 9 ∨ q.1 = 10 ∨ q.1 = 11) → q.2 = 0 → zeroFill [exA, exB] u q = 0 := by
      rintro ⟨a, b⟩ ha hb
      simp only at ha hb
      subst hb
      unfold zeroFill
      split
      · next hm =>
        obtain ⟨B, hB, h1, h2, _, _⟩ := (mem_levelCells2 _ _).1 hm
        have : a = 10 := by
          simp only [List.mem_cons, List.not_mem_nil, or_false] at hB
          rcases hB with rfl | rfl <;> simp only [exA, exB] at h1 h2 <;> omega
        rw [this, hu]
      · rfl
    rw [z (10, 0) (by norm_num) rfl, z _ (by norm_num) rfl, z _ (by norm_num) rfl]
    simp

/-- **C114** is violated: whatever the tolerance and the number of sweeps allowed, the coarsest solve can return
"converged" after one sweep as far from the solution as wanted. -/
theorem c114_violation_stops_far_away (tol M : ℝ) (ht : 0 ≤ tol) :
    ∃ (C : Coef2) (Bs : List Box2) (fill : (ℤ × ℤ → ℝ) → ℤ × ℤ → ℝ) (u v : ℤ × ℤ → ℝ) (p : ℤ × ℤ),
      Definite2 C Bs 1 ∧ GoodFill inside2 Bs fill ∧ (∀ B ∈ Bs, 0 ≤ B.jfirst) ∧ Solves2 C fill Bs v ∧ Lev2 Bs p ∧
      ∀ n, (smooth2 C fill tol Bs (n + 1) u).2 = 1 ∧ (coarsestRedBlack2 C fill tol (n + 1) Bs u).2 = 0 ∧
        M < |(coarsestRedBlack2 C fill tol (n + 1) Bs u).1 p - v p| := by
  let u : ℤ × ℤ → ℝ := fun p => if p = (1, 0) then 9 * (|M| + 1) else 0
  refine ⟨exC, [exA] ++ [exB], zeroFill [exA, exB], u, fun _ => 0, (1, 0), exDefinite _, zeroFill_good _, ?_, ?_, ?_, ?_⟩
  · simp [exA, exB]
  · intro p _
    rw [exC_res]
    have : ∀ q, zeroFill [exA, exB] (fun _ => 0) q = 0 := fun q => by unfold zeroFill; split <;> rfl
    rw [this, this, this]; ring
  · exact ⟨exA, by simp, by unfold inside2; norm_num [exA]⟩
  · intro n
    have inA0 : ((0, 0) : ℤ × ℤ) ∈ levelCells2 [exA, exB] :=
      (mem_levelCells2 _ _).2 ⟨exA, by simp, by unfold inside2; norm_num [exA]⟩
    have inA1 : ((1, 0) : ℤ × ℤ) ∈ levelCells2 [exA, exB] :=
      (mem_levelCells2 _ _).2 ⟨exA, by simp, by unfold inside2; norm_num [exA]⟩
    have out : ∀ a : ℤ, a = -1 ∨ a = 2 → ((a, 0) : ℤ × ℤ) ∉ levelCells2 [exA, exB] := by
      intro a ha hm
      obtain ⟨B, hB, h1, h2, _, _⟩ := (mem_levelCells2 _ _).1 hm
      simp only [List.mem_cons, List.not_mem_nil, or_false] at hB
      rcases hB with rfl | rfl <;> simp only [exA, exB] at h1 h2 <;> omega
    -- the red pass
    set r := (levelPass inside2 (fun B u => exC.colourPass B 0 u) (zeroFill [exA, exB]) ([exA] ++ [exB]) u).1 with hr
    have hval : ∀ off (y : ℤ × ℤ → ℝ) (p : ℤ × ℤ), inside2 exA p → ¬ inside2 exB p →
        (levelPass inside2 (fun B u => exC.colourPass B off u) (zeroFill [exA, exB]) ([exA] ++ [exB]) y).1 p =
          (exC.colourPass exA off (zeroFill [exA, exB] y)).1 p := by
      intro off y p h1 h2
      rw [levelPass_snoc]
      simp only [if_neg h2]
      show (if inside2 exA p then _ else _) = _
      exact if_pos h1
    have r0 : r (0, 0) = 3 * (|M| + 1) := by
      rw [hr, hval 0 u (0, 0) (by unfold inside2; norm_num [exA]) (by unfold inside2; norm_num [exB]),
        hit2 _ _ _ _ _ ((c43_colour2 exA (by norm_num [exA]) 0 (Or.inl rfl) _).2 (by unfold In2; norm_num [exA])), exC_upd]
      unfold zeroFill
      norm_num
      rw [if_pos inA1, if_neg (out (-1) (Or.inl rfl))]
      simp only [u, if_true]
      ring
    have r10 : r (10, 0) = 0 := by
      rw [hr, levelPass_snoc]
      simp only
      rw [if_pos (by unfold inside2; norm_num [exB])]
      have : (10, 0) ∉ cells2 exB 1 := by
        intro h
        rw [c43_colour2 exB (by norm_num [exB]) 1 (Or.inr rfl)] at h
        norm_num [exB] at h
      rw [hit2 _ _ _ _ _ ((c43_colour2 exB (by norm_num [exB]) 0 (Or.inl rfl) _).2 (by unfold In2; norm_num [exB])), exC_upd]
      have z : ∀ a : ℤ, a = 9 ∨ a = 11 → zeroFill [exA, exB] u (a, 0) = 0 := by
        intro a ha
        unfold zeroFill
        split
        · simp only [u]
          rw [if_neg (by simp; omega)]
        · rfl
      norm_num
      rw [z 9 (Or.inl rfl), z 11 (Or.inr rfl)]
      ring
    have hstop : (sweep inside2 (fun off B u => exC.colourPass B off u) (zeroFill [exA, exB]) ([exA] ++ [exB]) u).2 ≤ tol := by
      unfold sweep
      simp only
      rw [← hr, levelPass_snoc, levelPass_snoc]
      simp only
      rw [exB_res u (by simp [u]) 0 (Or.inl rfl), exB_res r r10 1 (Or.inr rfl)]
      simpa using ht
    have hone : smooth2 exC (zeroFill [exA, exB]) tol ([exA] ++ [exB]) (n + 1) u =
        ((sweep inside2 (fun off B u => exC.colourPass B off u) (zeroFill [exA, exB]) ([exA] ++ [exB]) u).1, 1) := by
      unfold smooth2
      simp only [smooth, if_pos (And.intro ht hstop)]
    refine ⟨by rw [hone], rfl, ?_⟩
    unfold coarsestRedBlack2
    rw [hone]
    unfold sweep
    simp only
    rw [← hr, hval 1 r (1, 0) (by unfold inside2; norm_num [exA]) (by unfold inside2; norm_num [exB]),
      hit2 _ _ _ _ _ ((c43_colour2 exA (by norm_num [exA]) 1 (Or.inr rfl) _).2 (by unfold In2; norm_num [exA])), exC_upd]
    unfold zeroFill
    norm_num
    rw [if_pos inA0, if_neg (out 2 (Or.inr rfl)), r0]
    have := le_abs_self M
    have := abs_nonneg M
    rw [abs_of_nonneg (by linarith)]
    linarith

/-! ## Cells that are never updated -/

/-- **C114** is violated for negative index origins: every second cell of a row with `jfirst+j` negative and odd keeps its
starting value for ever. -/
theorem c114_violation_never_updated (C : Coef2) (fill : (ℤ × ℤ → ℝ) → ℤ × ℤ → ℝ) (Bs : List Box2) (tol : ℝ)
    (hf : GoodFill inside2 Bs fill) (p : ℤ × ℤ) (hp : Lev2 Bs p)
    (hneg : ∀ B ∈ Bs, inside2 B p → B.jfirst + p.2 < 0 ∧ (B.jfirst + p.2) % 2 = 1 ∧ (p.1 - B.ifirst) % 2 = 0) (n : ℕ)
    (u : ℤ × ℤ → ℝ) : (smooth2 C fill tol Bs n u).1 p = u p := by
  have hpass : ∀ off : ℤ, off = 0 ∨ off = 1 → ∀ y : ℤ × ℤ → ℝ,
      (levelPass inside2 (fun B u => C.colourPass B off u) fill Bs y).1 p = y p := by
    intro off hoff y
    rcases owner (inside := inside2) Bs p with ⟨h, _⟩ | ⟨B, hB, hin, hv⟩
    · obtain ⟨B, hB, hin⟩ := hp
      exact absurd hin (h B hB)
    · rw [hv]
      obtain ⟨h1, h2, h3⟩ := hneg B hB hin
      have hz := c43_violation_negative_rows B p hin h1 h2
      rw [if_neg (by omega), visits_append] at hz
      have hm : p ∉ cells2 B off := by
        intro hm
        have h4 := visits_one (nodup_cells2 B off) hm
        rcases hoff with rfl | rfl <;> rw [h4] at hz <;> omega
      rw [c43_untouched C B off _ p (Or.inl hm), hf.keep _ _ hp]
  have h1 := (smooth_iter (inside := inside2) (cp := fun off B u => C.colourPass B off u) (fill := fill)
    (Bs := Bs) tol n u).1
  unfold smooth2
  rw [h1]
  clear h1
  generalize (smooth inside2 (fun off B u => C.colourPass B off u) fill tol Bs n u).2 = k
  induction k generalizing u with
  | zero => rfl
  | succ k ih =>
    simp only [Function.iterate_succ, Function.comp]
    refine (ih _).trans ?_
    unfold sweep
    simp only
    rw [hpass 1 (Or.inr rfl), hpass 0 (Or.inl rfl)]

/-- The hypotheses are met: four rows from `-1`, second row. -/
example : ∃ (Bs : List Box2) (p : ℤ × ℤ), Lev2 Bs p ∧
    ∀ B ∈ Bs, inside2 B p → B.jfirst + p.2 < 0 ∧ (B.jfirst + p.2) % 2 = 1 ∧ (p.1 - B.ifirst) % 2 = 0 :=
  ⟨[⟨0, 3, -1, 2⟩], (0, 0), ⟨⟨0, 3, -1, 2⟩, by simp, by unfold inside2; norm_num⟩, by simp⟩

/-- The hypotheses of the convergence theorems are met, with neighbouring patches whose colours clash. -/
example : ∃ (C : Coef2) (Bs : List Box2) (fill : (ℤ × ℤ → ℝ) → ℤ × ℤ → ℝ) (κ : ℝ) (p q : ℤ × ℤ), Definite2 C Bs 1 ∧
    GoodFill inside2 Bs fill ∧ (∀ B ∈ Bs, 0 ≤ B.jfirst) ∧ 0 < κ ∧ (∀ p, Lev2 Bs p → κ ≤ share2 C p) ∧
    (∃ v, Solves2 C fill Bs v) ∧ Lev2 Bs p ∧ Lev2 Bs q ∧ p ≠ q := by
  refine ⟨exC, [⟨0, 4, 0, 4⟩, ⟨5, 9, 0, 4⟩], zeroFill _, 1 / 3, (0, 0), (5, 0), exDefinite _, zeroFill_good _, by simp,
    by norm_num, ?_, ?_, ⟨⟨0, 4, 0, 4⟩, by simp, by unfold inside2; norm_num⟩, ?_, by simp⟩
  · intro p _
    unfold share2 Coef2.dudr
    norm_num [exC]
  · obtain ⟨v, hv, _⟩ := c114_solution2 exC (zeroFill [⟨0, 4, 0, 4⟩, ⟨5, 9, 0, 4⟩]) [⟨0, 4, 0, 4⟩, ⟨5, 9, 0, 4⟩] 1
      (exDefinite _) (zeroFill_good _)
    exact ⟨v, hv⟩
  · exact ⟨⟨5, 9, 0, 4⟩, by simp, by unfold inside2; norm_num⟩

end AMPE.SmoothLevel.Props
