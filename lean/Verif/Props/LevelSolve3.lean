import Verif.Model.LevelSolve3
import Verif.Props.LevelSolve
import Verif.Props.QuatFlow3

/-! # C121: the systems given to the level solvers in three dimensions -/

namespace AMPE.LevelSolve3.Props

open AMPE.LevelSolve3
open AMPE.QuatFlow3 (Cell mv)
open AMPE.QuatFlow3.Props (mv_add mv_zero mv_down_up mv_up_down)
open AMPE.LevelSolve (uk0 k1 cfA cfG)
open AMPE.LevelSolve.Props (Robin robin_value k1_range solvable zero_of_energy)

/-! ## Specification -/

/-- The boundary boxes describe the boundary of the level: every face between a cell of the level and a cell outside is
listed exactly once, with coefficient `a`. -/
structure Covers (cells : Finset Cell) (bs : List BdryBox) (a : Side → Cell → ℝ) : Prop where
  inside : ∀ f ∈ bs.flatMap BdryBox.faces, f.cell ∈ cells
  outside : ∀ f ∈ bs.flatMap BdryBox.faces, nbr f.cell f.side ∉ cells
  once : ((bs.flatMap BdryBox.faces).map fun f => (f.side, f.cell)).Nodup
  all : ∀ c ∈ cells, ∀ sd, nbr c sd ∉ cells → ∃ f ∈ bs.flatMap BdryBox.faces, f.side = sd ∧ f.cell = c
  coef : ∀ f ∈ bs.flatMap BdryBox.faces, f.a = a f.side f.cell

/-! ## The loop over the boundary faces -/

theorem sum_sides (F : Side → ℝ) :
    ∑ sd, F sd = F (0, false) + F (0, true) + (F (1, false) + F (1, true)) + (F (2, false) + F (2, true)) := by
  rw [Fintype.sum_prod_type, Fin.sum_univ_three]
  simp only [Fintype.sum_bool]
  ring

theorem get_clear (o : Off) (cells : Finset Cell) (c c0 : Cell) (sd s0 : Side) (hc : c ∈ cells)
    (hn : nbr c0 s0 ∉ cells) : get (clear o c0 s0) c sd = if (sd, c) = (s0, c0) then 0 else get o c sd := by
  obtain ⟨d, u⟩ := sd
  obtain ⟨d0, u0⟩ := s0
  have key : nbr c0 (d0, u0) ≠ c := fun h => hn (h ▸ hc)
  simp only [get, clear]
  by_cases hd : d = d0
  · subst hd
    have inj : mv d 1 c = mv d 1 c0 → c = c0 := fun e => by rw [← mv_down_up d c, e, mv_down_up]
    cases u <;> cases u0 <;> simp only [nbr, face, if_true, if_false, Bool.false_eq_true, ne_eq] at key ⊢
    · by_cases e : c = c0 <;> simp [e]
    · rw [if_neg (fun h => key h.2.symm), if_neg (by simp)]
    · rw [if_neg, if_neg (by simp)]
      rintro ⟨-, e⟩
      exact key (by rw [← e, mv_down_up])
    · by_cases e : c = c0
      · simp [e]
      · rw [if_neg (fun h => e (inj h.2)), if_neg (by simpa using e)]
  · rw [if_neg (fun h => hd h.1), if_neg (by simp [hd])]

theorem fold_spec (cells : Finset Cell) (w : Cell → Cell → ℝ) (h : Fin 3 → ℝ) (a : Side → Cell → ℝ) :
    ∀ (l : List BFace) (s : Sys), (∀ f ∈ l, f.cell ∈ cells) → (∀ f ∈ l, nbr f.cell f.side ∉ cells) →
      (l.map fun f => (f.side, f.cell)).Nodup → (∀ f ∈ l, f.a = a f.side f.cell) →
      let s' := l.foldl (adjustFace w h) s
      (∀ c ∈ cells, ∀ sd, get s'.off c sd = if (sd, c) ∈ l.map (fun f => (f.side, f.cell)) then 0 else get s.off c sd) ∧
      (∀ c ∈ cells, s'.diag c = s.diag c + ((l.filter fun f => f.cell = c).map fun f =>
        k1 (a f.side f.cell) (h f.side.1) * get s.off f.cell f.side).sum) ∧
      (∀ c ∈ cells, ∀ sd, s'.ak0 sd c = if (sd, c) ∈ l.map (fun f => (f.side, f.cell)) then
        uk0 (a sd c) (h sd.1) * get s.off c sd * w (nbr c sd) c else s.ak0 sd c) := by
  intro l
  induction l with
  | nil => intro s _ _ _ _; simp
  | cons f l ih =>
    intro s h1 h2 h3 h4
    simp only [List.foldl_cons]
    rw [List.map_cons, List.nodup_cons] at h3
    have hf1 := h1 f List.mem_cons_self
    have hf2 := h2 f List.mem_cons_self
    have hf4 := h4 f List.mem_cons_self
    obtain ⟨A, B, D⟩ := ih (adjustFace w h s f) (fun g hg => h1 g (List.mem_cons_of_mem _ hg))
      (fun g hg => h2 g (List.mem_cons_of_mem _ hg)) h3.2 (fun g hg => h4 g (List.mem_cons_of_mem _ hg))
    have hoff : ∀ c ∈ cells, ∀ sd, get (adjustFace w h s f).off c sd =
        if (sd, c) = (f.side, f.cell) then 0 else get s.off c sd := fun c hc sd => get_clear s.off cells c f.cell sd f.side hc hf2
    have hoffl : ∀ g ∈ l, get (adjustFace w h s f).off g.cell g.side = get s.off g.cell g.side := by
      intro g hg
      rw [hoff _ (h1 g (List.mem_cons_of_mem _ hg)), if_neg]
      intro he
      exact h3.1 (he ▸ List.mem_map.mpr ⟨g, hg, rfl⟩)
    refine ⟨?_, ?_, ?_⟩
    · intro c hc sd
      rw [A c hc sd, hoff c hc sd]
      simp only [List.map_cons, List.mem_cons]
      by_cases e1 : (sd, c) = (f.side, f.cell)
      · simp [e1]
      · simp [e1]
    · intro c hc
      rw [B c hc]
      have hs : ((l.filter fun g => g.cell = c).map fun g => k1 (a g.side g.cell) (h g.side.1) *
          get (adjustFace w h s f).off g.cell g.side) = ((l.filter fun g => g.cell = c).map fun g =>
          k1 (a g.side g.cell) (h g.side.1) * get s.off g.cell g.side) := by
        apply List.map_congr_left
        intro g hg
        rw [hoffl g (List.mem_of_mem_filter hg)]
      rw [hs]
      by_cases e : f.cell = c
      · subst e
        simp only [adjustFace, Function.update_self, List.filter_cons, decide_true, if_true, List.map_cons, List.sum_cons,
          ← hf4]
        ring
      · rw [List.filter_cons, if_neg (by simpa using e)]
        simp only [adjustFace]
        rw [Function.update_of_ne (Ne.symm e)]
    · intro c hc sd
      rw [D c hc sd, hoff c hc sd]
      simp only [List.map_cons, List.mem_cons]
      by_cases e1 : (sd, c) = (f.side, f.cell)
      · have e2 : (sd, c) ∉ l.map (fun f => (f.side, f.cell)) := by rw [e1]; exact h3.1
        rw [if_neg e2, if_pos (Or.inl e1)]
        obtain ⟨rfl, rfl⟩ := Prod.mk.inj e1
        simp only [adjustFace, and_self, if_true, hf4]
      · simp only [e1, if_false, false_or]
        split_ifs with e2
        · rfl
        · simp only [adjustFace]
          rw [if_neg]
          rintro ⟨rfl, rfl⟩
          exact e1 rfl

theorem list_sides (c : Cell) (F : Side → ℝ) : ∀ (l : List BFace), (l.map fun f => (f.side, f.cell)).Nodup →
    ((l.filter fun f => f.cell = c).map fun f => F f.side).sum =
      ∑ sd, if (sd, c) ∈ l.map (fun f => (f.side, f.cell)) then F sd else 0 := by
  intro l
  induction l with
  | nil => intro _; simp
  | cons f l ih =>
    intro h
    rw [List.map_cons, List.nodup_cons] at h
    have ih := ih h.2
    by_cases e : f.cell = c
    · rw [List.filter_cons, if_pos (by simpa using e), List.map_cons, List.sum_cons, ih]
      have h1 := h.1
      rw [e] at h1
      rw [List.map_cons, e]
      simp only [List.mem_cons, Prod.mk.injEq, and_true]
      generalize l.map (fun f => (f.side, f.cell)) = K at h1 ⊢
      have : ∀ sd : Side, (if sd = f.side ∨ (sd, c) ∈ K then F sd else 0) =
          (if sd = f.side then F sd else 0) + if (sd, c) ∈ K then F sd else 0 := by
        intro sd
        by_cases e1 : sd = f.side
        · subst e1; simp [h1]
        · simp [e1]
      simp only [this, Finset.sum_add_distrib, Finset.sum_ite_eq', Finset.mem_univ, if_true]
    · rw [List.filter_cons, if_neg (by simpa using e), ih, List.map_cons]
      have : ∀ sd : Side, ((sd, c) ∈ (f.side, f.cell) :: l.map (fun f => (f.side, f.cell))) ↔
          (sd, c) ∈ l.map (fun f => (f.side, f.cell)) := by
        intro sd
        rw [List.mem_cons]
        constructor
        · rintro (h | h)
          · exact absurd (Prod.mk.inj h).2.symm e
          · exact h
        · exact Or.inr
      simp only [this]

theorem mem_faces {cells : Finset Cell} {bs : List BdryBox} {a : Side → Cell → ℝ} (H : Covers cells bs a) (c : Cell)
    (hc : c ∈ cells) (sd : Side) :
    (sd, c) ∈ (bs.flatMap BdryBox.faces).map (fun f => (f.side, f.cell)) ↔ nbr c sd ∉ cells := by
  rw [List.mem_map]
  constructor
  · rintro ⟨f, hf, e⟩
    obtain ⟨rfl, rfl⟩ := Prod.mk.inj e
    exact H.outside f hf
  · intro h
    obtain ⟨f, hf, rfl, rfl⟩ := H.all c hc sd h
    exact ⟨f, hf, rfl⟩

theorem adjusted {cells : Finset Cell} {bs : List BdryBox} {a : Side → Cell → ℝ} (H : Covers cells bs a)
    (w : Cell → Cell → ℝ) (h : Fin 3 → ℝ) (s : Sys) (c : Cell) (hc : c ∈ cells) :
    let s' := adjustAll w h s bs
    (∀ sd, nbr c sd ∈ cells → get s'.off c sd = get s.off c sd) ∧
    s'.diag c = s.diag c + ∑ sd, (if nbr c sd ∈ cells then 0 else k1 (a sd c) (h sd.1) * get s.off c sd) ∧
    ∀ sd, nbr c sd ∉ cells → s'.ak0 sd c = uk0 (a sd c) (h sd.1) * get s.off c sd * w (nbr c sd) c := by
  obtain ⟨A, B, D⟩ := fold_spec cells w h a (bs.flatMap BdryBox.faces) s H.inside H.outside H.once H.coef
  have mem := mem_faces H c hc
  refine ⟨?_, ?_, ?_⟩
  · intro sd h'
    unfold adjustAll
    rw [A c hc sd, if_neg]
    rw [mem]; exact fun h'' => h'' h'
  · unfold adjustAll
    rw [B c hc]
    congr 1
    have e : ((bs.flatMap BdryBox.faces).filter fun f => f.cell = c).map (fun f =>
        k1 (a f.side f.cell) (h f.side.1) * get s.off f.cell f.side) =
        ((bs.flatMap BdryBox.faces).filter fun f => f.cell = c).map (fun f =>
        k1 (a f.side c) (h f.side.1) * get s.off c f.side) := by
      apply List.map_congr_left
      intro f hf
      have : f.cell = c := by simpa using (List.mem_filter.mp hf).2
      rw [this]
    rw [e, list_sides c (fun sd => k1 (a sd c) (h sd.1) * get s.off c sd) _ H.once]
    refine Finset.sum_congr rfl fun sd _ => ?_
    by_cases h' : nbr c sd ∈ cells
    · rw [if_pos h', if_neg (by rw [mem]; exact fun h'' => h'' h')]
    · rw [if_neg h', if_pos (by rw [mem]; exact h')]
  · intro sd h'
    unfold adjustAll
    rw [D c hc sd, if_pos ((mem sd).mpr h')]

theorem pairTerm_eq (cells : Finset Cell) (o : Off) (v : Cell → ℝ) (c : Cell) (d : Fin 3) :
    pairTerm cells (o d) d v c = (if nbr c (d, false) ∈ cells then get o c (d, false) * v (nbr c (d, false)) else 0)
      + if nbr c (d, true) ∈ cells then get o c (d, true) * v (nbr c (d, true)) else 0 := rfl

theorem row_eq (cells : Finset Cell) (s : Sys) (v : Cell → ℝ) (c : Cell) :
    row cells s v c = s.diag c * v c + ∑ sd, if nbr c sd ∈ cells then get s.off c sd * v (nbr c sd) else 0 := by
  rw [sum_sides]
  simp only [row, pairTerm_eq]
  ring

theorem minusSum_eq (o : Off) (c : Cell) : minusSum o c = -∑ sd, get o c sd := by
  rw [sum_sides]
  simp only [minusSum, get, face, if_true, Bool.false_eq_true, if_false]
  ring

/-! ## Energy form -/

theorem pairD (cells : Finset Cell) (o z : Cell → ℝ) (d : Fin 3) :
    ∑ c ∈ cells, (if mv d (-1) c ∈ cells then o c * (z (mv d (-1) c) - z c) * z c else 0)
      + ∑ c ∈ cells, (if mv d 1 c ∈ cells then o (mv d 1 c) * (z (mv d 1 c) - z c) * z c else 0)
      = -∑ c ∈ cells, if mv d (-1) c ∈ cells then o c * (z c - z (mv d (-1) c)) ^ 2 else 0 := by
  have h : ∑ c ∈ cells, (if mv d 1 c ∈ cells then o (mv d 1 c) * (z (mv d 1 c) - z c) * z c else 0) =
      ∑ c ∈ cells, (if mv d (-1) c ∈ cells then o c * (z c - z (mv d (-1) c)) * z (mv d (-1) c) else 0) := by
    rw [← Finset.sum_filter, ← Finset.sum_filter]
    refine Finset.sum_nbij' (fun c => mv d 1 c) (fun c => mv d (-1) c) ?_ ?_ ?_ ?_ ?_
    · intro c hc
      rw [Finset.mem_filter] at hc ⊢
      rw [mv_down_up]; exact hc.symm
    · intro c hc
      rw [Finset.mem_filter] at hc ⊢
      rw [mv_up_down]; exact hc.symm
    · intro c _; exact mv_down_up d c
    · intro c _; exact mv_up_down d c
    · intro c _; rw [mv_down_up]
  rw [h, ← Finset.sum_add_distrib, ← Finset.sum_neg_distrib]
  apply Finset.sum_congr rfl
  intro c _
  split_ifs <;> ring

/-- Summation by parts on a level. -/
theorem form (cells : Finset Cell) (o : Off) (z : Cell → ℝ) :
    ∑ c ∈ cells, ∑ sd, (if nbr c sd ∈ cells then get o c sd * (z (nbr c sd) - z c) * z c else 0) =
      -∑ d, ∑ c ∈ cells, if mv d (-1) c ∈ cells then o d c * (z c - z (mv d (-1) c)) ^ 2 else 0 := by
  have h3 : ∀ c, ∑ sd, (if nbr c sd ∈ cells then get o c sd * (z (nbr c sd) - z c) * z c else 0) =
      ∑ d, ((if mv d (-1) c ∈ cells then o d c * (z (mv d (-1) c) - z c) * z c else 0)
      + (if mv d 1 c ∈ cells then o d (mv d 1 c) * (z (mv d 1 c) - z c) * z c else 0)) := by
    intro c
    rw [sum_sides, Fin.sum_univ_three]
    rfl
  simp only [h3]
  rw [Finset.sum_comm, ← Finset.sum_neg_distrib]
  refine Finset.sum_congr rfl fun d _ => ?_
  rw [Finset.sum_add_distrib, pairD]

theorem sum_face_nonpos (cells : Finset Cell) (o : Off) (z : Cell → ℝ) (ho : ∀ d c, o d c ≤ 0) :
    ∑ d, ∑ c ∈ cells, (if mv d (-1) c ∈ cells then o d c * (z c - z (mv d (-1) c)) ^ 2 else 0) ≤ 0 := by
  refine Finset.sum_nonpos fun d _ => Finset.sum_nonpos fun c _ => ?_
  split_ifs
  · exact mul_nonpos_of_nonpos_of_nonneg (ho d c) (sq_nonneg _)
  · exact le_rfl

/-! ## The coarsest level of the elliptic solver -/

/-- The coefficients of the multigrid residual on this level. -/
def facCoef (P : Poisson) (f : Cell → ℝ) : Smoother.Coef3 :=
  { dx := P.h 0, dy := P.h 1, dz := P.h 2, fx := P.h 0, fy := P.h 1, fz := P.h 2, xdc := P.D 0, ydc := P.D 1, zdc := P.D 2,
    m := P.M, sf := P.C, rhs := f }

theorem fac_residual (P : Poisson) (f U : Cell → ℝ) (c : Cell) :
    (facCoef P f).levelResidual U c =
      f c - P.M c * (∑ sd, get P.off c sd * (U (nbr c sd) - U c)) - P.C c * U c := by
  obtain ⟨i, j, k⟩ := c
  rw [sum_sides]
  simp only [facCoef, Smoother.Coef3.levelResidual, Smoother.Coef3.residual, Smoother.Coef3.xflux, Smoother.Coef3.yflux,
    Smoother.Coef3.zflux, get, face, Poisson.off, nbr, mv, if_true, Bool.false_eq_true, if_false, add_sub_cancel_right,
    ← sub_eq_add_neg]
  ring

theorem raw_off (P : Poisson) (c : Cell) (sd : Side) :
    get P.raw.off c sd = get P.off c sd * P.ms c * P.ms (nbr c sd) := by
  obtain ⟨d, u⟩ := sd
  cases u
  · simp only [Poisson.raw, multiplyOffDiag, get, face, nbr, Bool.false_eq_true, if_false]; ring
  · simp only [Poisson.raw, multiplyOffDiag, get, face, nbr, if_true, mv_down_up]

theorem raw_diag (P : Poisson) (c : Cell) : P.raw.diag c = P.C c - P.M c * ∑ sd, get P.off c sd := by
  simp only [Poisson.raw, minusSum_eq]
  ring

theorem poisson_row (P : Poisson) {cells : Finset Cell} {bs : List BdryBox} {a : Side → Cell → ℝ} (H : Covers cells bs a)
    (v : Cell → ℝ) (c : Cell) (hc : c ∈ cells) (hM : 0 ≤ P.M c) :
    row cells (P.system bs) v c = P.C c * v c + P.ms c * ∑ sd, get P.off c sd *
      ((if nbr c sd ∈ cells then P.ms (nbr c sd) * v (nbr c sd) else
        k1 (a sd c) (P.h sd.1) * P.ms (nbr c sd) * v c) - P.ms c * v c) := by
  obtain ⟨A, B, -⟩ := adjusted H (fun _ _ => 1) P.h P.raw c hc
  have hs : P.ms c * P.ms c = P.M c := Real.mul_self_sqrt hM
  rw [row_eq]
  unfold Poisson.system
  rw [B, raw_diag, ← hs, add_mul, sub_mul, Finset.mul_sum _ _ (P.ms c * P.ms c), Finset.sum_mul, Finset.sum_mul,
    Finset.mul_sum _ _ (P.ms c), sub_add_eq_add_sub, add_sub_assoc, add_assoc, ← add_sub_right_comm, ← Finset.sum_add_distrib,
    ← Finset.sum_sub_distrib]
  congr 1
  refine Finset.sum_congr rfl fun sd _ => ?_
  by_cases h : nbr c sd ∈ cells
  · rw [if_pos h, if_pos h, if_pos h, A sd h, raw_off]; ring
  · rw [if_neg h, if_neg h, if_neg h, raw_off]; ring

/-- What the result of the coarsest-level solve leaves in the multigrid residual. -/
theorem c121_violation_boundary_mobility (P : Poisson) {cells : Finset Cell} {bs : List BdryBox} {a : Side → Cell → ℝ} (H : Covers cells bs a)
    (hh : ∀ d, 0 < P.h d) (ha : ∀ sd c, 0 ≤ a sd c ∧ a sd c ≤ 1) (hM : ∀ c ∈ cells, 0 < P.M c)
    (f u : Cell → ℝ) (hs : P.Solved cells bs f u) (U : Cell → ℝ) (hU : ∀ c ∈ cells, U c = u c)
    (hR : ∀ c ∈ cells, ∀ sd, nbr c sd ∉ cells → Robin (a sd c) (P.h sd.1) 0 (U c) (U (nbr c sd)))
    (c : Cell) (hc : c ∈ cells) :
    (facCoef P f).levelResidual U c = P.M c * ∑ sd, (if nbr c sd ∈ cells then 0 else
      get P.off c sd * k1 (a sd c) (P.h sd.1) * (P.ms (nbr c sd) / P.ms c - 1) * U c) := by
  obtain ⟨v, hv, huv⟩ := hs
  have hms : P.ms c ≠ 0 := (Real.sqrt_pos.mpr (hM c hc)).ne'
  have hmm : P.ms c * P.ms c = P.M c := Real.mul_self_sqrt (hM c hc).le
  have hf : f c = P.ms c * row cells (P.system bs) v c := by rw [hv c hc]; field_simp
  rw [fac_residual, hf, poisson_row P H v c hc (hM c hc).le]
  have hUc : U c = v c * P.ms c := by rw [hU c hc, huv c hc]
  have key : ∀ sd, P.ms c * (P.ms c * (get P.off c sd *
      ((if nbr c sd ∈ cells then P.ms (nbr c sd) * v (nbr c sd) else
        k1 (a sd c) (P.h sd.1) * P.ms (nbr c sd) * v c) - P.ms c * v c)))
      - P.M c * (get P.off c sd * (U (nbr c sd) - U c)) =
      P.M c * (if nbr c sd ∈ cells then 0 else
        get P.off c sd * k1 (a sd c) (P.h sd.1) * (P.ms (nbr c sd) / P.ms c - 1) * U c) := by
    intro sd
    rw [← hmm]
    by_cases h : nbr c sd ∈ cells
    · rw [if_pos h, if_pos h, hU _ h, huv _ h, hUc]; ring
    · rw [if_neg h, if_neg h]
      have hr := (robin_value _ _ _ _ _ (hh sd.1).ne' (k1_range _ _ (ha sd c).1 (ha sd c).2 (hh sd.1)).1.ne').mp (hR c hc sd h)
      rw [hr, hUc]
      field_simp
      ring
  have S := Finset.sum_congr rfl fun sd (_ : sd ∈ Finset.univ) => key sd
  rw [Finset.sum_sub_distrib, ← Finset.mul_sum, ← Finset.mul_sum, ← Finset.mul_sum, ← Finset.mul_sum] at S
  linear_combination S - P.C c * hUc

/-- **C121** (partial): if the mobility behind every boundary face equals that of the cell in front of it, the result of
the coarsest-level solve has zero multigrid residual in every cell.  Missing: unequal mobilities, see
`c121_violation_boundary_mobility`. -/
theorem c121_exact_partial (P : Poisson) {cells : Finset Cell} {bs : List BdryBox} {a : Side → Cell → ℝ} (H : Covers cells bs a)
    (hh : ∀ d, 0 < P.h d) (ha : ∀ sd c, 0 ≤ a sd c ∧ a sd c ≤ 1) (hM : ∀ c ∈ cells, 0 < P.M c)
    (hMg : ∀ c ∈ cells, ∀ sd, nbr c sd ∉ cells → P.M (nbr c sd) = P.M c)
    (f u : Cell → ℝ) (hs : P.Solved cells bs f u) (U : Cell → ℝ) (hU : ∀ c ∈ cells, U c = u c)
    (hR : ∀ c ∈ cells, ∀ sd, nbr c sd ∉ cells → Robin (a sd c) (P.h sd.1) 0 (U c) (U (nbr c sd)))
    (c : Cell) (hc : c ∈ cells) : (facCoef P f).levelResidual U c = 0 := by
  rw [c121_violation_boundary_mobility P H hh ha hM f u hs U hU hR c hc]
  have hms : P.ms c ≠ 0 := (Real.sqrt_pos.mpr (hM c hc)).ne'
  rw [Finset.sum_eq_zero, mul_zero]
  intro sd _
  split_ifs with h
  · rfl
  · have : P.ms (nbr c sd) = P.ms c := by unfold Poisson.ms; rw [hMg c hc sd h]
    rw [this, div_self hms]; ring

/-- With a Dirichlet condition at one face of a cell and different mobilities on the two sides of that face, the result
does not satisfy the equation of that cell, unless it is zero there. -/
theorem c121_violation_dirichlet (P : Poisson) {cells : Finset Cell} {bs : List BdryBox} {a : Side → Cell → ℝ} (H : Covers cells bs a)
    (hh : ∀ d, 0 < P.h d) (ha : ∀ sd c, 0 ≤ a sd c ∧ a sd c ≤ 1) (hM : ∀ c ∈ cells, 0 < P.M c)
    (f u : Cell → ℝ) (hs : P.Solved cells bs f u) (U : Cell → ℝ) (hU : ∀ c ∈ cells, U c = u c)
    (hR : ∀ c ∈ cells, ∀ sd, nbr c sd ∉ cells → Robin (a sd c) (P.h sd.1) 0 (U c) (U (nbr c sd)))
    (c : Cell) (hc : c ∈ cells) (s0 : Side) (h0 : nbr c s0 ∉ cells) (hin : ∀ sd, sd ≠ s0 → nbr c sd ∈ cells)
    (hd : a s0 c = 1) (hoff : get P.off c s0 ≠ 0) (hMn : 0 ≤ P.M (nbr c s0)) (hne : P.M (nbr c s0) ≠ P.M c) (hu : u c ≠ 0) :
    (facCoef P f).levelResidual U c ≠ 0 := by
  rw [c121_violation_boundary_mobility P H hh ha hM f u hs U hU hR c hc]
  have hms : 0 < P.ms c := Real.sqrt_pos.mpr (hM c hc)
  have hk : k1 1 (P.h s0.1) = -1 := by
    have := hh s0.1
    unfold k1
    rw [div_eq_iff]
    · ring
    · linarith
  have hq : P.ms (nbr c s0) / P.ms c - 1 ≠ 0 := by
    intro h
    have h1 : P.ms (nbr c s0) = P.ms c := by
      field_simp at h
      linarith
    exact hne ((Real.sqrt_inj hMn (hM c hc).le).mp h1)
  rw [Finset.sum_eq_single s0]
  · rw [if_neg h0, hd, hk, hU c hc]
    have := hM c hc
    exact mul_ne_zero this.ne' (mul_ne_zero (mul_ne_zero (mul_ne_zero hoff (by norm_num)) hq) hu)
  · intro sd _ hsd
    rw [if_pos (hin sd hsd)]
  · intro h; exact absurd (Finset.mem_univ _) h

theorem const_row (P : Poisson) (m : ℝ) {cells : Finset Cell} {bs : List BdryBox} {a : Side → Cell → ℝ} (H : Covers cells bs a)
    (v : Cell → ℝ) (c : Cell) (hc : c ∈ cells) :
    row cells (P.systemConst m bs) v c = P.C c * v c + m * ∑ sd, get P.off c sd *
      ((if nbr c sd ∈ cells then v (nbr c sd) else k1 (a sd c) (P.h sd.1) * v c) - v c) := by
  obtain ⟨A, B, -⟩ := adjusted H (fun _ _ => 1) P.h (P.rawConst m) c hc
  have ro : ∀ sd, get (P.rawConst m).off c sd = m * get P.off c sd := fun sd => rfl
  have rd : (P.rawConst m).diag c = P.C c - m * ∑ sd, get P.off c sd := by
    simp only [Poisson.rawConst, minusSum_eq]; ring
  rw [row_eq]
  unfold Poisson.systemConst
  rw [B, rd, add_mul, sub_mul, Finset.mul_sum _ _ m, Finset.sum_mul, Finset.sum_mul, Finset.mul_sum _ _ m,
    sub_add_eq_add_sub, add_sub_assoc, add_assoc, ← add_sub_right_comm, ← Finset.sum_add_distrib,
    ← Finset.sum_sub_distrib]
  congr 1
  refine Finset.sum_congr rfl fun sd _ => ?_
  by_cases h : nbr c sd ∈ cells
  · rw [if_pos h, if_pos h, if_pos h, A sd h, ro]; ring
  · rw [if_neg h, if_neg h, if_neg h, ro]; ring

/-- **C121** (constant mobility): the result of the coarsest-level solve has zero multigrid residual in every cell. -/
theorem c121_exact_const (P : Poisson) (m : ℝ) {cells : Finset Cell} {bs : List BdryBox} {a : Side → Cell → ℝ} (H : Covers cells bs a)
    (hh : ∀ d, 0 < P.h d) (ha : ∀ sd c, 0 ≤ a sd c ∧ a sd c ≤ 1)
    (f u : Cell → ℝ) (hs : P.SolvedConst m cells bs f u) (U : Cell → ℝ) (hU : ∀ c ∈ cells, U c = u c)
    (hR : ∀ c ∈ cells, ∀ sd, nbr c sd ∉ cells → Robin (a sd c) (P.h sd.1) 0 (U c) (U (nbr c sd)))
    (c : Cell) (hc : c ∈ cells) : (facCoef { P with M := fun _ => m } f).levelResidual U c = 0 := by
  have hf := hs c hc
  rw [const_row P m H u c hc] at hf
  rw [fac_residual, ← hf]
  have key : ∀ sd, (if nbr c sd ∈ cells then u (nbr c sd) else k1 (a sd c) (P.h sd.1) * u c) = U (nbr c sd) := by
    intro sd
    by_cases h : nbr c sd ∈ cells
    · rw [if_pos h, hU _ h]
    · rw [if_neg h, (robin_value _ _ _ _ _ (hh sd.1).ne' (k1_range _ _ (ha sd c).1 (ha sd c).2 (hh sd.1)).1.ne').mp (hR c hc sd h), hU c hc]
      ring
  simp only [key, hU c hc]
  simp only [Poisson.off, get]
  ring

theorem off_nonpos (P : Poisson) (hD : ∀ d c, P.D d c ≤ 0) (d : Fin 3) (c : Cell) : P.off d c ≤ 0 :=
  mul_nonpos_of_nonneg_of_nonpos (one_div_nonneg.mpr (mul_self_nonneg _)) (hD d c)

/-- The matrix of the coarsest-level solve is positive definite: diffusion coefficients of the sign used by the code
(`D = -gamma eps^2`), positive `C`, and mobilities that do not increase across the boundary. -/
theorem c121_positive (P : Poisson) {cells : Finset Cell} {bs : List BdryBox} {a : Side → Cell → ℝ} (H : Covers cells bs a)
    (hh : ∀ d, 0 < P.h d) (ha : ∀ sd c, 0 ≤ a sd c ∧ a sd c ≤ 1) (hD : ∀ d c, P.D d c ≤ 0) (hM : ∀ c ∈ cells, 0 < P.M c)
    (hMg : ∀ c ∈ cells, ∀ sd, nbr c sd ∉ cells → P.M (nbr c sd) ≤ P.M c) (v : Cell → ℝ) :
    ∑ c ∈ cells, P.C c * v c ^ 2 ≤ ∑ c ∈ cells, v c * row cells (P.system bs) v c := by
  have ho := off_nonpos P hD
  let z := fun c => P.ms c * v c
  have hrow : ∀ c ∈ cells, P.C c * v c ^ 2
      + ∑ sd, (if nbr c sd ∈ cells then get P.off c sd * (z (nbr c sd) - z c) * z c else 0)
      ≤ v c * row cells (P.system bs) v c := by
    intro c hc
    rw [poisson_row P H v c hc (hM c hc).le]
    have key : ∀ sd, (if nbr c sd ∈ cells then get P.off c sd * (z (nbr c sd) - z c) * z c else 0)
        ≤ v c * (P.ms c * (get P.off c sd *
      ((if nbr c sd ∈ cells then P.ms (nbr c sd) * v (nbr c sd) else
        k1 (a sd c) (P.h sd.1) * P.ms (nbr c sd) * v c) - P.ms c * v c))) := by
      intro sd
      split_ifs with h
      · exact le_of_eq (by simp only [z]; ring)
      · have h1 := (k1_range _ _ (ha sd c).1 (ha sd c).2 (hh sd.1)).2.2
        have h2 : P.ms (nbr c sd) ≤ P.ms c := Real.sqrt_le_sqrt (hMg c hc sd h)
        have h3 : 0 ≤ P.ms (nbr c sd) := Real.sqrt_nonneg _
        have h4 : 0 ≤ P.ms c := Real.sqrt_nonneg _
        have h5 : k1 (a sd c) (P.h sd.1) * P.ms (nbr c sd) - P.ms c ≤ 0 := by nlinarith
        have := mul_nonneg (mul_nonneg (mul_nonneg_of_nonpos_of_nonpos (show get P.off c sd ≤ 0 from ho _ _) h5) h4) (sq_nonneg (v c))
        linarith [this, show get P.off c sd * (k1 (a sd c) (P.h sd.1) * P.ms (nbr c sd) - P.ms c) * P.ms c * v c ^ 2 =
          v c * (P.ms c * (get P.off c sd * (k1 (a sd c) (P.h sd.1) * P.ms (nbr c sd) * v c - P.ms c * v c))) by ring]
    have S := Finset.sum_le_sum fun sd (_ : sd ∈ Finset.univ) => key sd
    rw [← Finset.mul_sum, ← Finset.mul_sum] at S
    linarith
  have S := Finset.sum_le_sum hrow
  rw [Finset.sum_add_distrib, form] at S
  have f1 := sum_face_nonpos cells P.off z ho
  linarith

theorem row_linear (cells : Finset Cell) (s : Sys) (v w : Cell → ℝ) (t : ℝ) (c : Cell) :
    row cells s (fun d => v d + t * w d) c = row cells s v c + t * row cells s w c := by
  simp only [row, pairTerm]
  split_ifs <;> ring

theorem row_local (cells : Finset Cell) (s : Sys) (v w : Cell → ℝ) (h : ∀ c ∈ cells, v c = w c) (c : Cell) (hc : c ∈ cells) :
    row cells s v c = row cells s w c := by
  rw [row_eq, row_eq, h c hc]
  congr 1
  refine Finset.sum_congr rfl fun sd _ => ?_
  split_ifs with h1
  · rw [h _ h1]
  · rfl

/-- **C121**: the coarsest-level problem has a result for every right-hand side, and only one. -/
theorem c121_solvable (P : Poisson) {cells : Finset Cell} {bs : List BdryBox} {a : Side → Cell → ℝ} (H : Covers cells bs a)
    (hh : ∀ d, 0 < P.h d) (ha : ∀ sd c, 0 ≤ a sd c ∧ a sd c ≤ 1) (hD : ∀ d c, P.D d c ≤ 0)
    (hC : ∀ c ∈ cells, 0 < P.C c) (hM : ∀ c ∈ cells, 0 < P.M c)
    (hMg : ∀ c ∈ cells, ∀ sd, nbr c sd ∉ cells → P.M (nbr c sd) ≤ P.M c) (f : Cell → ℝ) :
    (∃ u, P.Solved cells bs f u) ∧ ∀ u u', P.Solved cells bs f u → P.Solved cells bs f u' → ∀ c ∈ cells, u c = u' c := by
  have S := solvable cells (row cells (P.system bs)) (row_linear cells _) (row_local cells _)
    (fun v h0 => zero_of_energy cells P.C v _ hC (c121_positive P H hh ha hD hM hMg v) h0) (fun c => f c / P.ms c)
  constructor
  · obtain ⟨v, hv⟩ := S.1
    exact ⟨fun c => v c * P.ms c, v, hv, fun _ _ => rfl⟩
  · rintro u u' ⟨v, hv, hu⟩ ⟨v', hv', hu'⟩ c hc
    rw [hu c hc, hu' c hc, S.2 v v' hv hv' c hc]

/-! ## The levels of the orientation solver -/

/-- Face coefficient divided by the squared spacing. -/
noncomputable def scaled (L : QuatLevel) : Off := fun d p => L.fc d p / L.h d ^ 2

theorem quat_raw (L : QuatLevel) : L.raw = { diag := minusSum (scaled L), off := scaled L, ak0 := fun _ _ => 0 } := by
  have h : (fun d p => L.fc d p * (1 / L.h d ^ 2) : Off) = scaled L := by
    unfold scaled
    simp only [mul_one_div]
  simp only [QuatLevel.raw, h]

theorem quat_residual (L : QuatLevel) (rhs q : Cell → ℝ) (c : Cell) :
    L.residual rhs q c = rhs c - q c - L.gamma * L.m c *
      ∑ sd, get (scaled L) c sd * (L.m (nbr c sd) * q (nbr c sd) - L.m c * q c) := by
  rw [sum_sides]
  simp only [QuatLevel.residual, QuatLevel.flux, get, face, scaled, nbr, if_true, Bool.false_eq_true, if_false,
    mv_down_up, div_eq_mul_inv, one_mul, pow_two, mul_inv]
  ring

theorem quat_row_eq (L : QuatLevel) (cells : Finset Cell) (s : Sys) (v : Cell → ℝ) (c : Cell) :
    L.row cells s v c = v c + L.gamma * L.m c * (s.diag c * L.m c * v c +
      ∑ sd, if nbr c sd ∈ cells then get s.off c sd * (L.m (nbr c sd) * v (nbr c sd)) else 0) := by
  have e : ∀ d, pairTerm cells (L.lower s d) d v c = L.gamma * L.m c *
      ((if nbr c (d, false) ∈ cells then get s.off c (d, false) * (L.m (nbr c (d, false)) * v (nbr c (d, false))) else 0)
      + if nbr c (d, true) ∈ cells then get s.off c (d, true) * (L.m (nbr c (d, true)) * v (nbr c (d, true))) else 0) := by
    intro d
    simp only [pairTerm, QuatLevel.lower, get, face, nbr, if_true, Bool.false_eq_true, if_false, mv_down_up]
    split_ifs <;> ring
  rw [sum_sides]
  simp only [QuatLevel.row, e, QuatLevel.center]
  ring

theorem quat_row (L : QuatLevel) {cells : Finset Cell} {bs : List BdryBox} {a : Side → Cell → ℝ} (H : Covers cells bs a)
    (v : Cell → ℝ) (c : Cell) (hc : c ∈ cells) :
    L.row cells (L.entries bs) v c = v c + L.gamma * L.m c * ∑ sd, get (scaled L) c sd *
      ((if nbr c sd ∈ cells then L.m (nbr c sd) * v (nbr c sd) else
        k1 (a sd c) (L.h sd.1) * (L.m c * v c)) - L.m c * v c) := by
  obtain ⟨A, B, -⟩ := adjusted H (fun gho int => L.m gho * L.gamma * L.m int) L.h L.raw c hc
  rw [quat_row_eq]
  unfold QuatLevel.entries
  rw [B]
  have rd : L.raw.diag c = -∑ sd, get (scaled L) c sd := by
    rw [quat_raw]; exact minusSum_eq _ _
  have ro : L.raw.off = scaled L := by rw [quat_raw]
  rw [rd]
  rw [ro] at A ⊢
  have key : ∀ sd, (if nbr c sd ∈ cells then
      get (adjustAll (fun gho int => L.m gho * L.gamma * L.m int) L.h L.raw bs).off c sd * (L.m (nbr c sd) * v (nbr c sd)) else 0)
      + ((if nbr c sd ∈ cells then 0 else k1 (a sd c) (L.h sd.1) * get (scaled L) c sd) * (L.m c * v c)
      - get (scaled L) c sd * (L.m c * v c)) = get (scaled L) c sd *
      ((if nbr c sd ∈ cells then L.m (nbr c sd) * v (nbr c sd) else
        k1 (a sd c) (L.h sd.1) * (L.m c * v c)) - L.m c * v c) := by
    intro sd
    by_cases h : nbr c sd ∈ cells
    · rw [if_pos h, if_pos h, if_pos h, A sd h]; ring
    · rw [if_neg h, if_neg h, if_neg h]; ring
  have S := Finset.sum_congr rfl fun sd (_ : sd ∈ Finset.univ) => key sd
  rw [Finset.sum_add_distrib, Finset.sum_sub_distrib, ← Finset.sum_mul, ← Finset.sum_mul] at S
  linear_combination (L.gamma * L.m c) * S

theorem rhs_fold (s : Sys) (g : Side → Cell → ℝ) (c : Cell) : ∀ (l : List BFace) (r : Cell → ℝ),
    l.foldl (fun r f => Function.update r f.cell (r f.cell - s.ak0 f.side f.cell * g f.side f.cell)) r c =
      r c - ((l.filter fun f => f.cell = c).map fun f => s.ak0 f.side c * g f.side c).sum := by
  intro l
  induction l with
  | nil => intro r; simp
  | cons f l ih =>
    intro r
    rw [List.foldl_cons, ih]
    by_cases e : f.cell = c
    · rw [List.filter_cons, if_pos (by simpa using e), List.map_cons, List.sum_cons, e, Function.update_self]
      ring
    · rw [List.filter_cons, if_neg (by simpa using e), Function.update_of_ne (Ne.symm e)]

theorem rhs_eq (L : QuatLevel) {cells : Finset Cell} {bs : List BdryBox} {a : Side → Cell → ℝ} (H : Covers cells bs a)
    (g : Side → Cell → ℝ) (rhs : Cell → ℝ) (c : Cell) (hc : c ∈ cells) :
    adjustRhs (L.entries bs) g rhs bs c = rhs c - L.gamma * L.m c * ∑ sd, (if nbr c sd ∈ cells then 0 else
      get (scaled L) c sd * (uk0 (a sd c) (L.h sd.1) * L.m (nbr c sd) * g sd c)) := by
  obtain ⟨-, -, D⟩ := adjusted H (fun gho int => L.m gho * L.gamma * L.m int) L.h L.raw c hc
  have ro : L.raw.off = scaled L := by rw [quat_raw]
  unfold adjustRhs
  rw [rhs_fold, list_sides c (fun sd => (L.entries bs).ak0 sd c * g sd c) _ H.once, Finset.mul_sum]
  congr 1
  refine Finset.sum_congr rfl fun sd _ => ?_
  have mem := mem_faces H c hc sd
  by_cases h : nbr c sd ∈ cells
  · rw [if_neg (by rw [mem]; exact fun h' => h' h), if_pos h, mul_zero]
  · rw [if_pos (by rw [mem]; exact h), if_neg h]
    unfold QuatLevel.entries
    rw [D sd h, ro]
    ring

/-- What the result of a level solve leaves in the residual of the multigrid solver, with ghost values given by the
boundary condition. -/
theorem c121_violation_quat_mobility (L : QuatLevel) {cells : Finset Cell} {bs : List BdryBox} {a : Side → Cell → ℝ} (H : Covers cells bs a)
    (hh : ∀ d, 0 < L.h d) (ha : ∀ sd c, 0 ≤ a sd c ∧ a sd c ≤ 1)
    (g : Side → Cell → ℝ) (rhs v : Cell → ℝ) (hs : L.Solved cells bs g rhs v) (q : Cell → ℝ) (hq : ∀ c ∈ cells, q c = v c)
    (hR : ∀ c ∈ cells, ∀ sd, nbr c sd ∉ cells → Robin (a sd c) (L.h sd.1) (g sd c) (q c) (q (nbr c sd)))
    (c : Cell) (hc : c ∈ cells) :
    L.residual rhs q c = L.gamma * L.m c * ∑ sd, (if nbr c sd ∈ cells then 0 else
      get (scaled L) c sd * k1 (a sd c) (L.h sd.1) * (L.m c - L.m (nbr c sd)) * q c) := by
  have h := hs c hc
  rw [quat_row L H v c hc, rhs_eq L H g rhs c hc] at h
  rw [quat_residual]
  have key : ∀ sd, get (scaled L) c sd *
      ((if nbr c sd ∈ cells then L.m (nbr c sd) * v (nbr c sd) else
        k1 (a sd c) (L.h sd.1) * (L.m c * v c)) - L.m c * v c)
      + (if nbr c sd ∈ cells then 0 else
      get (scaled L) c sd * (uk0 (a sd c) (L.h sd.1) * L.m (nbr c sd) * g sd c))
      - get (scaled L) c sd * (L.m (nbr c sd) * q (nbr c sd) - L.m c * q c)
      = if nbr c sd ∈ cells then 0 else
      get (scaled L) c sd * k1 (a sd c) (L.h sd.1) * (L.m c - L.m (nbr c sd)) * q c := by
    intro sd
    by_cases h : nbr c sd ∈ cells
    · rw [if_pos h, if_pos h, if_pos h, hq _ h, hq c hc]; ring
    · rw [if_neg h, if_neg h, if_neg h,
        (robin_value _ _ _ _ _ (hh sd.1).ne' (k1_range _ _ (ha sd c).1 (ha sd c).2 (hh sd.1)).1.ne').mp (hR c hc sd h), hq c hc]
      ring
  have S := Finset.sum_congr rfl fun sd (_ : sd ∈ Finset.univ) => key sd
  rw [Finset.sum_sub_distrib, Finset.sum_add_distrib] at S
  linear_combination (-1 : ℝ) * h - hq c hc + (L.gamma * L.m c) * S

/-- **C121** (partial, orientation solver): the result of a level solve has zero multigrid residual in every cell if at each
boundary face the mobilities on both sides agree or the ghost value does not depend on the interior value (`k1 = 0`, as at
coarse-fine boundaries).  Missing: other boundary conditions with different mobilities. -/
theorem c121_quat_exact_partial (L : QuatLevel) {cells : Finset Cell} {bs : List BdryBox} {a : Side → Cell → ℝ} (H : Covers cells bs a)
    (hh : ∀ d, 0 < L.h d) (ha : ∀ sd c, 0 ≤ a sd c ∧ a sd c ≤ 1)
    (hm : ∀ c ∈ cells, ∀ sd, nbr c sd ∉ cells → L.m (nbr c sd) = L.m c ∨ a sd c = cfA (L.h sd.1))
    (g : Side → Cell → ℝ) (rhs v : Cell → ℝ) (hs : L.Solved cells bs g rhs v) (q : Cell → ℝ) (hq : ∀ c ∈ cells, q c = v c)
    (hR : ∀ c ∈ cells, ∀ sd, nbr c sd ∉ cells → Robin (a sd c) (L.h sd.1) (g sd c) (q c) (q (nbr c sd)))
    (c : Cell) (hc : c ∈ cells) : L.residual rhs q c = 0 := by
  rw [c121_violation_quat_mobility L H hh ha g rhs v hs q hq hR c hc, Finset.sum_eq_zero, mul_zero]
  intro sd _
  split_ifs with h
  · rfl
  · rcases hm c hc sd h with h1 | h1
    · rw [h1]; ring
    · have : k1 (a sd c) (L.h sd.1) = 0 := by
        rw [h1]
        have h2 := hh sd.1
        have h3 : 1 + 0.5 * L.h sd.1 ≠ 0 := by linarith
        unfold k1 cfA
        rw [one_div, inv_mul_cancel₀ h3]
        ring
      rw [this]; ring

/-- The matrix of a level is positive definite for every mobility, and its smallest eigenvalue is at least 1. -/
theorem c121_quat_positive (L : QuatLevel) {cells : Finset Cell} {bs : List BdryBox} {a : Side → Cell → ℝ} (H : Covers cells bs a)
    (hh : ∀ d, 0 < L.h d) (ha : ∀ sd c, 0 ≤ a sd c ∧ a sd c ≤ 1) (hg : 0 ≤ L.gamma) (hD : ∀ d c, L.fc d c ≤ 0) (v : Cell → ℝ) :
    ∑ c ∈ cells, v c ^ 2 ≤ ∑ c ∈ cells, v c * L.row cells (L.entries bs) v c := by
  have ho : ∀ d c, scaled L d c ≤ 0 := fun d c => div_nonpos_of_nonpos_of_nonneg (hD d c) (sq_nonneg _)
  let z := fun c => L.m c * v c
  have hrow : ∀ c ∈ cells, v c ^ 2
      + L.gamma * ∑ sd, (if nbr c sd ∈ cells then get (scaled L) c sd * (z (nbr c sd) - z c) * z c else 0)
      ≤ v c * L.row cells (L.entries bs) v c := by
    intro c hc
    rw [quat_row L H v c hc]
    have key : ∀ sd, (if nbr c sd ∈ cells then get (scaled L) c sd * (z (nbr c sd) - z c) * z c else 0)
        ≤ v c * (L.m c * (get (scaled L) c sd *
      ((if nbr c sd ∈ cells then L.m (nbr c sd) * v (nbr c sd) else
        k1 (a sd c) (L.h sd.1) * (L.m c * v c)) - L.m c * v c))) := by
      intro sd
      split_ifs with h
      · exact le_of_eq (by simp only [z]; ring)
      · have h1 := (k1_range _ _ (ha sd c).1 (ha sd c).2 (hh sd.1)).2.2
        have := mul_nonneg (mul_nonneg_of_nonpos_of_nonpos (show get (scaled L) c sd ≤ 0 from ho _ _)
          (show k1 (a sd c) (L.h sd.1) - 1 ≤ 0 by linarith)) (sq_nonneg (z c))
        exact this.trans_eq (by simp only [z]; ring)
    have S := mul_le_mul_of_nonneg_left (Finset.sum_le_sum fun sd (_ : sd ∈ Finset.univ) => key sd) hg
    rw [← Finset.mul_sum, ← Finset.mul_sum] at S
    linarith
  have S := Finset.sum_le_sum hrow
  rw [Finset.sum_add_distrib, ← Finset.mul_sum, form] at S
  have f1 := mul_nonneg hg (neg_nonneg.mpr (sum_face_nonpos cells (scaled L) z ho))
  linarith

/-- **C121** (orientation solver): every level problem has exactly one result. -/
theorem c121_quat_solvable (L : QuatLevel) {cells : Finset Cell} {bs : List BdryBox} {a : Side → Cell → ℝ} (H : Covers cells bs a)
    (hh : ∀ d, 0 < L.h d) (ha : ∀ sd c, 0 ≤ a sd c ∧ a sd c ≤ 1) (hg : 0 ≤ L.gamma) (hD : ∀ d c, L.fc d c ≤ 0)
    (g : Side → Cell → ℝ) (rhs : Cell → ℝ) :
    (∃ v, L.Solved cells bs g rhs v) ∧
      ∀ v v', L.Solved cells bs g rhs v → L.Solved cells bs g rhs v' → ∀ c ∈ cells, v c = v' c := by
  refine solvable cells (L.row cells (L.entries bs)) ?_ ?_ ?_ (adjustRhs (L.entries bs) g rhs bs)
  · intro v w t c
    simp only [QuatLevel.row, pairTerm]
    split_ifs <;> ring
  · intro v w h c hc
    rw [quat_row_eq, quat_row_eq, h c hc]
    congr 3
    refine Finset.sum_congr rfl fun sd _ => ?_
    split_ifs with h1
    · rw [h _ h1]
    · rfl
  · intro v h0
    refine zero_of_energy cells (fun _ => 1) v _ (fun _ _ => one_pos) ?_ h0
    simpa only [one_mul] using c121_quat_positive L H hh ha hg hD v

/-- The full stencil has the entries implied by the symmetric one. -/
theorem c121_quat_symmetric (L : QuatLevel) (bs : List BdryBox) (d : Fin 3) (c : Cell) :
    L.upper (L.entries bs) d c = L.lower (L.entries bs) d (mv d 1 c) := by
  simp only [QuatLevel.upper, QuatLevel.lower, mv_down_up]
  ring

/-- **C121** (orientation solver): with boundary data zero (what the integrator hands to its linear solvers, C79), a zero
residual gives a zero correction. -/
theorem c121_quat_zero_correction (L : QuatLevel) {cells : Finset Cell} {bs : List BdryBox} {a : Side → Cell → ℝ} (H : Covers cells bs a)
    (hh : ∀ d, 0 < L.h d) (ha : ∀ sd c, 0 ≤ a sd c ∧ a sd c ≤ 1) (hg : 0 ≤ L.gamma) (hD : ∀ d c, L.fc d c ≤ 0) (v : Cell → ℝ)
    (hs : L.Solved cells bs (fun _ _ => 0) (fun _ => 0) v) : ∀ c ∈ cells, v c = 0 := by
  refine (c121_quat_solvable L H hh ha hg hD _ _).2 v (fun _ => 0) hs ?_
  intro c hc
  rw [rhs_eq L H _ _ c hc, quat_row L H _ c hc]
  simp

/-! ## Columns: data that do not depend on z -/

/-- The cell of the plane below a cell. -/
def flat (c : Cell) : LevelSolve.Cell := (c.1, c.2.1)

/-- The side of the plane below a side; the two z sides have none. -/
def up : LevelSolve.Side → Side
  | .W => (0, false)
  | .E => (0, true)
  | .S => (1, false)
  | .N => (1, true)

theorem sum_up (F : Side → ℝ) : ∑ sd, F sd = LevelSolve.Props.sides (fun sd => F (up sd)) + (F (2, false) + F (2, true)) := by
  rw [sum_sides]
  simp only [LevelSolve.Props.sides, up]
  ring

theorem flat_nbr (c : Cell) (sd : LevelSolve.Side) : flat (nbr c (up sd)) = LevelSolve.nbr (flat c) sd := by
  cases sd <;> simp [flat, nbr, up, LevelSolve.nbr, mv, sub_eq_add_neg]

theorem flat_z (c : Cell) (u : Bool) : flat (nbr c (2, u)) = flat c := by cases u <;> rfl

theorem mem_up {cells : Finset LevelSolve.Cell} {cells3 : Finset Cell} {k0 k1 : ℤ}
    (hcells : ∀ c, c ∈ cells3 ↔ flat c ∈ cells ∧ k0 ≤ c.2.2 ∧ c.2.2 ≤ k1) (c : Cell) (hc : c ∈ cells3) (sd : LevelSolve.Side) :
    nbr c (up sd) ∈ cells3 ↔ LevelSolve.nbr (flat c) sd ∈ cells := by
  have h := (hcells c).mp hc
  rw [hcells, flat_nbr]
  have : (nbr c (up sd)).2.2 = c.2.2 := by cases sd <;> rfl
  rw [this]
  exact ⟨fun h' => h'.1, fun h' => ⟨h', h.2⟩⟩

/-- The z sides of a cell with z-independent values contribute nothing, inside and at no-flux boundaries. -/
theorem z_term (cells3 : Finset Cell) (m v : LevelSolve.Cell → ℝ) (h : ℝ) (hh : 0 < h) (c : Cell) (u : Bool) :
    ((if nbr c (2, u) ∈ cells3 then m (flat (nbr c (2, u))) * v (flat (nbr c (2, u))) else
        LevelSolve.k1 0 h * m (flat (nbr c (2, u))) * v (flat c)) - m (flat c) * v (flat c)) = 0 := by
  rw [flat_z]
  have : LevelSolve.k1 0 h = 1 := by
    unfold LevelSolve.k1
    norm_num
  split_ifs
  · ring
  · rw [this]; ring

/-- **C121** (columns): on a level of columns with data that do not depend on z and no-flux conditions at the ends of the
columns, the result of the two-dimensional problem of the base, repeated along z, is a result of the three-dimensional
problem. -/
theorem c121_columns (P : Poisson) (P2 : LevelSolve.Poisson) {cells : Finset LevelSolve.Cell} {cells3 : Finset Cell} {k0 kn : ℤ}
    (hcells : ∀ c, c ∈ cells3 ↔ flat c ∈ cells ∧ k0 ≤ c.2.2 ∧ c.2.2 ≤ kn)
    {bs2 : List LevelSolve.BdryBox} {bs : List BdryBox} {a2 : LevelSolve.Side → LevelSolve.Cell → ℝ} {a : Side → Cell → ℝ}
    (H2 : LevelSolve.Props.Covers cells bs2 a2) (H : Covers cells3 bs a)
    (ha : ∀ sd c, a (up sd) c = a2 sd (flat c)) (haz : ∀ u c, a (2, u) c = 0)
    (hx : P.h 0 = P2.hx) (hy : P.h 1 = P2.hy) (hz : 0 < P.h 2)
    (hDx : ∀ c, P.D 0 c = P2.D.x (flat c)) (hDy : ∀ c, P.D 1 c = P2.D.y (flat c))
    (hC : ∀ c, P.C c = P2.C (flat c)) (hM : ∀ c, P.M c = P2.M (flat c)) (hpos : ∀ c ∈ cells, 0 < P2.M c)
    (f u : LevelSolve.Cell → ℝ) (hs : P2.Solved cells bs2 f u) :
    P.Solved cells3 bs (fun c => f (flat c)) (fun c => u (flat c)) := by
  obtain ⟨v, hv, hu⟩ := hs
  have hms : ∀ c, P.ms c = P2.ms (flat c) := fun c => by unfold Poisson.ms LevelSolve.Poisson.ms; rw [hM]
  refine ⟨fun c => v (flat c), ?_, fun c hc => ?_⟩
  · intro c hc
    have hc2 := ((hcells c).mp hc).1
    rw [poisson_row P H _ c hc (by rw [hM]; exact (hpos _ hc2).le), hms c]
    beta_reduce
    rw [← hv _ hc2, LevelSolve.Props.poisson_row P2 H2 v (flat c) hc2 (hpos _ hc2).le, sum_up]
    simp only [haz, hms]
    rw [z_term cells3 P2.ms v (P.h 2) hz c false, z_term cells3 P2.ms v (P.h 2) hz c true]
    have key : ∀ sd, get P.off c (up sd) = P2.off.get (flat c) sd ∧
        P.h (up sd).1 = LevelSolve.spacing P2.hx P2.hy sd := by
      intro sd
      cases sd <;> simp [get, face, up, Poisson.off, LevelSolve.Poisson.off, LevelSolve.Off.get, hDx, hDy, hx, hy, flat, mv,
        LevelSolve.spacing]
    simp only [mem_up hcells c hc, flat_nbr, (key _).1, (key _).2, ha, hC, mul_zero, add_zero]
  · beta_reduce
    rw [hu _ ((hcells c).mp hc).1, hms]

/-- The same for the orientation solver; `g` and `rhs` do not depend on z either. -/
theorem c121_quat_columns (L : QuatLevel) (L2 : LevelSolve.QuatLevel) {cells : Finset LevelSolve.Cell} {cells3 : Finset Cell} {k0 kn : ℤ}
    (hcells : ∀ c, c ∈ cells3 ↔ flat c ∈ cells ∧ k0 ≤ c.2.2 ∧ c.2.2 ≤ kn)
    {bs2 : List LevelSolve.BdryBox} {bs : List BdryBox} {a2 : LevelSolve.Side → LevelSolve.Cell → ℝ} {a : Side → Cell → ℝ}
    (H2 : LevelSolve.Props.Covers cells bs2 a2) (H : Covers cells3 bs a)
    (ha : ∀ sd c, a (up sd) c = a2 sd (flat c)) (haz : ∀ u c, a (2, u) c = 0)
    (hx : L.h 0 = L2.hx) (hy : L.h 1 = L2.hy) (hz : 0 < L.h 2) (hg : L.gamma = L2.gamma)
    (hDx : ∀ c, L.fc 0 c = L2.fc.x (flat c)) (hDy : ∀ c, L.fc 1 c = L2.fc.y (flat c)) (hm : ∀ c, L.m c = L2.m (flat c))
    (g2 : LevelSolve.Side → LevelSolve.Cell → ℝ) (g : Side → Cell → ℝ) (hgg : ∀ sd c, g (up sd) c = g2 sd (flat c))
    (hgz : ∀ u c, g (2, u) c = 0) (rhs v : LevelSolve.Cell → ℝ) (hs : L2.Solved cells bs2 g2 rhs v) :
    L.Solved cells3 bs g (fun c => rhs (flat c)) (fun c => v (flat c)) := by
  intro c hc
  have hc2 := ((hcells c).mp hc).1
  have h := hs _ hc2
  rw [LevelSolve.Props.quat_row L2 H2 v _ hc2, LevelSolve.Props.rhs_eq L2 H2 g2 rhs _ hc2] at h
  rw [quat_row L H _ c hc, rhs_eq L H g _ c hc, sum_up, sum_up]
  simp only [haz, hgz, hm, mul_zero, ite_self, add_zero]
  have zt : ∀ u, (if nbr c (2, u) ∈ cells3 then L2.m (flat (nbr c (2, u))) * v (flat (nbr c (2, u))) else
        LevelSolve.k1 0 (L.h 2) * (L2.m (flat c) * v (flat c))) - L2.m (flat c) * v (flat c) = 0 := by
    intro u
    have := z_term cells3 L2.m v (L.h 2) hz c u
    rw [flat_z] at this ⊢
    rw [← mul_assoc]
    exact this
  rw [zt false, zt true]
  have key : ∀ sd, get (scaled L) c (up sd) = (LevelSolve.Props.scaled L2).get (flat c) sd ∧
      L.h (up sd).1 = LevelSolve.spacing L2.hx L2.hy sd := by
    intro sd
    cases sd <;> simp [get, face, up, scaled, LevelSolve.Props.scaled, LevelSolve.Off.get, hDx, hDy, hx, hy, flat, mv,
      LevelSolve.spacing]
  simp only [mem_up hcells c hc, flat_nbr, (key _).1, (key _).2, ha, hg, hgg, mul_zero, add_zero]
  exact h

/-! ## Hypotheses are met: cuboids -/

/-- A cuboid of cells and the six boxes around it. -/
noncomputable def cuboid (lo hi : Cell) : Finset Cell :=
  Finset.Icc lo.1 hi.1 ×ˢ (Finset.Icc lo.2.1 hi.2.1 ×ˢ Finset.Icc lo.2.2 hi.2.2)

theorem mem_cuboid (lo hi c : Cell) : c ∈ cuboid lo hi ↔
    (lo.1 ≤ c.1 ∧ c.1 ≤ hi.1) ∧ (lo.2.1 ≤ c.2.1 ∧ c.2.1 ≤ hi.2.1) ∧ lo.2.2 ≤ c.2.2 ∧ c.2.2 ≤ hi.2.2 := by
  simp only [cuboid, Finset.mem_product, Finset.mem_Icc]

def cuboidBoxes (lo hi : Cell) (a : Side → ℝ) : List BdryBox :=
  [⟨(0, false), (lo.1 - 1, lo.2.1, lo.2.2), (lo.1 - 1, hi.2.1, hi.2.2), fun _ => a (0, false)⟩,
   ⟨(0, true), (hi.1 + 1, lo.2.1, lo.2.2), (hi.1 + 1, hi.2.1, hi.2.2), fun _ => a (0, true)⟩,
   ⟨(1, false), (lo.1, lo.2.1 - 1, lo.2.2), (hi.1, lo.2.1 - 1, hi.2.2), fun _ => a (1, false)⟩,
   ⟨(1, true), (lo.1, hi.2.1 + 1, lo.2.2), (hi.1, hi.2.1 + 1, hi.2.2), fun _ => a (1, true)⟩,
   ⟨(2, false), (lo.1, lo.2.1, lo.2.2 - 1), (hi.1, hi.2.1, lo.2.2 - 1), fun _ => a (2, false)⟩,
   ⟨(2, true), (lo.1, lo.2.1, hi.2.2 + 1), (hi.1, hi.2.1, hi.2.2 + 1), fun _ => a (2, true)⟩]

theorem faces_side (b : BdryBox) (f : BFace) (hf : f ∈ b.faces) : f.side = b.location := by
  unfold BdryBox.faces at hf
  split at hf <;> simp only [List.mem_flatMap, List.mem_map] at hf <;> obtain ⟨_, _, _, _, rfl⟩ := hf <;> rfl

theorem nodup_pairs (l1 l2 : List ℤ) (h1 : l1.Nodup) (h2 : l2.Nodup) (F : ℤ → ℤ → Side × Cell)
    (inj : ∀ x y x' y', F x y = F x' y' → x = x' ∧ y = y') : (l1.flatMap fun x => l2.map fun y => F x y).Nodup := by
  rw [List.nodup_flatMap]
  refine ⟨fun x _ => h2.map fun y y' h => (inj x y x y' h).2, h1.imp ?_⟩
  intro x x' hne
  simp only [Function.onFun, List.Disjoint, List.mem_map]
  rintro _ ⟨y, -, rfl⟩ ⟨y', -, h⟩
  exact hne (inj _ _ _ _ h).1.symm

theorem nodup_faces (b : BdryBox) : (b.faces.map fun f => (f.side, f.cell)).Nodup := by
  have nd := Smoother.Props.nodup_rows
  unfold BdryBox.faces
  split <;> simp only [List.map_flatMap, List.map_map] <;> refine nodup_pairs _ _ (nd _ _) (nd _ _) _ ?_ <;>
    · intro x y x' y' h
      simp only [Function.comp_apply, Prod.mk.injEq, true_and, and_true] at h
      first | exact h | exact h.symm

theorem mem_cuboid_faces (lo hi : Cell) (h1 : lo.1 ≤ hi.1) (h2 : lo.2.1 ≤ hi.2.1) (h3 : lo.2.2 ≤ hi.2.2) (a : Side → ℝ) (f : BFace) :
    f ∈ (cuboidBoxes lo hi a).flatMap BdryBox.faces ↔
      f.cell ∈ cuboid lo hi ∧ nbr f.cell f.side ∉ cuboid lo hi ∧ f.a = a f.side := by
  have mr := Smoother.Props.mem_rows
  simp only [cuboidBoxes, List.flatMap_cons, List.flatMap_nil, List.append_nil, List.mem_append, BdryBox.faces, BdryBox.inner,
    List.mem_flatMap, List.mem_map, mr, if_true, Bool.false_eq_true, if_false, mem_cuboid]
  constructor
  · rintro (⟨k, hk, j, hj, rfl⟩ | ⟨k, hk, j, hj, rfl⟩ | ⟨k, hk, j, hj, rfl⟩ | ⟨k, hk, j, hj, rfl⟩ | ⟨k, hk, j, hj, rfl⟩ | ⟨k, hk, j, hj, rfl⟩) <;>
      refine ⟨?_, ?_, rfl⟩ <;> simp [nbr, mv] <;> omega
  · obtain ⟨⟨d, u⟩, ⟨i, j, k⟩, x⟩ := f
    rintro ⟨hc, hn, hx⟩
    dsimp only at hx
    subst hx
    fin_cases d <;> cases u <;> simp [nbr, mv] at hc hn
    · exact Or.inl ⟨k, hc.2.2, j, hc.2.1, by simp; omega⟩
    · exact Or.inr (Or.inl ⟨k, hc.2.2, j, hc.2.1, by simp; omega⟩)
    · exact Or.inr (Or.inr (Or.inl ⟨k, hc.2.2, i, hc.1, by simp; omega⟩))
    · exact Or.inr (Or.inr (Or.inr (Or.inl ⟨k, hc.2.2, i, hc.1, by simp; omega⟩)))
    · exact Or.inr (Or.inr (Or.inr (Or.inr (Or.inl ⟨j, hc.2.1, i, hc.1, by simp; omega⟩))))
    · exact Or.inr (Or.inr (Or.inr (Or.inr (Or.inr ⟨j, hc.2.1, i, hc.1, by simp; omega⟩))))

theorem cuboid_covers (lo hi : Cell) (h1 : lo.1 ≤ hi.1) (h2 : lo.2.1 ≤ hi.2.1) (h3 : lo.2.2 ≤ hi.2.2) (a : Side → ℝ) :
    Covers (cuboid lo hi) (cuboidBoxes lo hi a) (fun sd _ => a sd) := by
  have mem := mem_cuboid_faces lo hi h1 h2 h3 a
  constructor
  · exact fun f hf => ((mem f).mp hf).1
  · exact fun f hf => ((mem f).mp hf).2.1
  · rw [List.map_flatMap, List.nodup_flatMap]
    refine ⟨fun b _ => nodup_faces b, ?_⟩
    have hd : ∀ b b' : BdryBox, b.location ≠ b'.location →
        (Function.onFun List.Disjoint fun b : BdryBox => b.faces.map fun f => (f.side, f.cell)) b b' := by
      intro b b' hne
      simp only [Function.onFun, List.Disjoint, List.mem_map]
      rintro _ ⟨f, hf, rfl⟩ ⟨f', hf', h⟩
      refine hne ?_
      rw [← faces_side b f hf, ← faces_side b' f' hf']
      exact (Prod.mk.inj h).1.symm
    refine List.Pairwise.imp (R := fun b b' => b.location ≠ b'.location) (fun {b b'} h => hd b b' h) ?_
    simp [cuboidBoxes]
  · intro c hc sd hn
    exact ⟨⟨sd, c, a sd⟩, (mem _).mpr ⟨hc, hn, rfl⟩, rfl, rfl⟩
  · exact fun f hf => ((mem f).mp hf).2.2

theorem nbr_unique (lo hi c c' : Cell) (sd sd' : Side) (hc : c ∈ cuboid lo hi) (hc' : c' ∈ cuboid lo hi)
    (hn : nbr c sd ∉ cuboid lo hi) (e : nbr c sd = nbr c' sd') : sd = sd' ∧ c = c' := by
  have hn' := hn
  rw [e] at hn'
  obtain ⟨d, b⟩ := sd
  obtain ⟨d', b'⟩ := sd'
  obtain ⟨i, j, k⟩ := c
  obtain ⟨i', j', k'⟩ := c'
  rw [mem_cuboid] at hc hc' hn hn'
  fin_cases d <;> fin_cases d' <;> cases b <;> cases b' <;> simp [nbr, mv] at hc hc' hn hn' e ⊢ <;> omega

open Classical in
/-- On a cuboid, ghost values with the required Robin conditions exist. -/
theorem ghosts_exist (lo hi : Cell) (h : Fin 3 → ℝ) (hh : ∀ d, 0 < h d) (a : Side → ℝ) (ha : ∀ sd, 0 ≤ a sd ∧ a sd ≤ 1)
    (g : Side → Cell → ℝ) (u : Cell → ℝ) :
    ∃ U : Cell → ℝ, (∀ c ∈ cuboid lo hi, U c = u c) ∧
      ∀ c ∈ cuboid lo hi, ∀ sd, nbr c sd ∉ cuboid lo hi → Robin (a sd) (h sd.1) (g sd c) (U c) (U (nbr c sd)) := by
  let val := fun (x : Side × Cell) => k1 (a x.1) (h x.1.1) * u x.2 + uk0 (a x.1) (h x.1.1) * g x.1 x.2
  let R := fun (p : Cell) (x : Side × Cell) => x.2 ∈ cuboid lo hi ∧ nbr x.2 x.1 = p
  let U : Cell → ℝ := fun p => if p ∈ cuboid lo hi then u p else if e : ∃ x, R p x then val e.choose else 0
  refine ⟨U, fun c hc => if_pos hc, ?_⟩
  intro c hc sd hn
  rw [robin_value _ _ _ _ _ (hh sd.1).ne' (k1_range _ _ (ha sd).1 (ha sd).2 (hh sd.1)).1.ne']
  have hU : U c = u c := if_pos hc
  have he : ∃ x, R (nbr c sd) x := ⟨(sd, c), hc, rfl⟩
  have hG : U (nbr c sd) = val (sd, c) := by
    simp only [U]
    rw [if_neg hn, dif_pos he]
    obtain ⟨h1, h2⟩ := he.choose_spec
    obtain ⟨e1, e2⟩ := nbr_unique lo hi c _ sd _ hc h1 hn h2.symm
    congr 1
    exact (Prod.ext e1 e2).symm
  rw [hG, hU]

/-- A level of cuboid shape with a Dirichlet condition at the lower x end and no-flux conditions elsewhere, mobility
decreasing away from the level. -/
example (f : Cell → ℝ) : ∃ u, (Poisson.mk (fun _ => 1) (fun d _ => -(1 + (d : ℝ))) (fun _ => 1)
    (fun c => if c.1 < 0 then 1 else 4)).Solved (cuboid (0, 0, 0) (2, 3, 1))
      (cuboidBoxes (0, 0, 0) (2, 3, 1) fun sd => if sd = (0, false) then 1 else 0) f u := by
  refine (c121_solvable _ (cuboid_covers (0, 0, 0) (2, 3, 1) (by norm_num) (by norm_num) (by norm_num) _) ?_ ?_ ?_ ?_ ?_ ?_ f).1
  · intro d; norm_num
  · intro sd c; split_ifs <;> norm_num
  · intro d c; dsimp only; have : (0 : ℝ) ≤ (d : ℝ) := Nat.cast_nonneg _; linarith
  · intro c _; norm_num
  · intro c _; dsimp only; split_ifs <;> norm_num
  · rintro ⟨i, j, k⟩ hc sd hn
    simp only [mem_cuboid] at hc
    have : ¬ i < 0 := by omega
    simp only [this, if_false]
    split_ifs <;> norm_num

example (g : Side → Cell → ℝ) (rhs : Cell → ℝ) : ∃ v, (QuatLevel.mk (fun d => 1 + d) 3 (fun d c => -(c.1 : ℝ) ^ 2)
    (fun c => 1 + (c.2.1 : ℝ) ^ 2)).Solved (cuboid (0, 0, 0) (2, 3, 4))
      (cuboidBoxes (0, 0, 0) (2, 3, 4) fun sd => if sd.2 then 1 else 1 / 2) g rhs v := by
  refine (c121_quat_solvable _ (cuboid_covers (0, 0, 0) (2, 3, 4) (by norm_num) (by norm_num) (by norm_num) _) ?_ ?_ (by norm_num) ?_ g rhs).1
  · intro d; dsimp only; positivity
  · intro sd c; split_ifs <;> norm_num
  · intro d c; dsimp only; nlinarith [sq_nonneg (c.1 : ℝ)]

/-- The error of `c121_violation_dirichlet` is met in the middle cell of the face where the mobility drops from 4 to 1. -/
example (f u U : Cell → ℝ) (hs : (Poisson.mk (fun _ => 1) (fun _ _ => -1) (fun _ => 1)
      (fun c => if c.2.2 < 0 then 1 else 4)).Solved (cuboid (0, 0, 0) (2, 2, 2))
        (cuboidBoxes (0, 0, 0) (2, 2, 2) fun sd => if sd = (2, false) then 1 else 0) f u)
    (hU : ∀ c ∈ cuboid (0, 0, 0) (2, 2, 2), U c = u c)
    (hR : ∀ c ∈ cuboid (0, 0, 0) (2, 2, 2), ∀ sd, nbr c sd ∉ cuboid (0, 0, 0) (2, 2, 2) →
      Robin (if sd = (2, false) then 1 else 0) 1 0 (U c) (U (nbr c sd)))
    (hu : u (1, 1, 0) ≠ 0) :
    (facCoef (Poisson.mk (fun _ => 1) (fun _ _ => -1) (fun _ => 1) (fun c => if c.2.2 < 0 then 1 else 4)) f).levelResidual U (1, 1, 0) ≠ 0 := by
  refine c121_violation_dirichlet _ (cuboid_covers (0, 0, 0) (2, 2, 2) (by norm_num) (by norm_num) (by norm_num) _) ?_ ?_ ?_ f u hs U hU hR
    (1, 1, 0) (by simp [mem_cuboid]) (2, false) (by simp [mem_cuboid, nbr, mv]) ?_ (by simp) ?_ ?_ ?_ hu
  · intro d; norm_num
  · intro sd c; split_ifs <;> norm_num
  · intro c _; dsimp only; split_ifs <;> norm_num
  · rintro ⟨d, b⟩ hsd
    fin_cases d <;> cases b <;> simp [mem_cuboid, nbr, mv] at hsd ⊢
  · simp [Poisson.off, get]
  · simp [nbr, mv]
  · simp [nbr, mv]

/-- Columns over a rectangle, no-flux at the ends of the columns: both covers exist and agree as `c121_columns` requires. -/
example (a2 : LevelSolve.Side → ℝ) : ∃ a : Side → ℝ,
    Covers (cuboid (0, 0, 0) (2, 3, 5)) (cuboidBoxes (0, 0, 0) (2, 3, 5) a) (fun sd _ => a sd) ∧
    LevelSolve.Props.Covers (LevelSolve.Props.rect (0, 0) (2, 3)) (LevelSolve.Props.rectBoxes (0, 0) (2, 3) a2) (fun sd _ => a2 sd) ∧
    (∀ sd, a (up sd) = a2 sd) ∧ (∀ u, a (2, u) = 0) ∧
    ∀ c, c ∈ cuboid (0, 0, 0) (2, 3, 5) ↔ flat c ∈ LevelSolve.Props.rect (0, 0) (2, 3) ∧ 0 ≤ c.2.2 ∧ c.2.2 ≤ 5 := by
  refine ⟨fun sd => if sd = (0, false) then a2 .W else if sd = (0, true) then a2 .E else if sd = (1, false) then a2 .S else
    if sd = (1, true) then a2 .N else 0, cuboid_covers _ _ (by norm_num) (by norm_num) (by norm_num) _,
    LevelSolve.Props.rect_covers _ _ (by norm_num) (by norm_num) _, ?_, ?_, ?_⟩
  · intro sd; cases sd <;> simp [up]
  · intro u; cases u <;> simp
  · intro c
    simp only [mem_cuboid, flat, LevelSolve.Props.rect, Finset.mem_product, Finset.mem_Icc]
    tauto

end AMPE.LevelSolve3.Props
