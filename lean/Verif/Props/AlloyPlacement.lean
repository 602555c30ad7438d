import Verif.Props.AlloyFlow3

/-!
# C129: an isothermal alloy does not depend on how the sample lies in the grid
-/

namespace AMPE.AlloyPlacement.Props

open AMPE.Functions AMPE.Functions.Props AMPE.Flux AMPE.PhaseRHS AMPE.PhaseRHS.Props AMPE.Alloy AMPE.DiffCoeff AMPE.DiffCoeff.Props
  AMPE.Coupling AMPE.AlloyFlow AMPE.AlloyFlow3 AMPE.AlloyFlow3.Props
open AMPE.AlloyFlow.Props (fraction)
open AMPE.QuatFlow3 (Cell mv)
open AMPE.QuatFlow3.Props (Per3 cellSum3 cellSum3_congr cellSum3_add mv_comm mv_down_up mv_up_down mv_add mv_zero)

/-! ## Specification -/

/-- A way of laying the same sample into the grid: cell `p` of the new grid is cell `g p` of the old one, the new direction `d` is the
old direction `dir d`, run through forwards (`sgn d = 1`) or backwards (`sgn d = -1`). -/
structure Placement where
  dir : Equiv.Perm (Fin 3)
  sgn : Fin 3 → ℤ
  g : Cell → Cell
  sgn_one : ∀ d, sgn d = 1 ∨ sgn d = -1
  step : ∀ d a p, g (mv d a p) = mv (dir d) (sgn d * a) (g p)

/-- The old side which is the lower side `(d, p)` of the new grid: a side is named by the cell above it. -/
def Placement.side (P : Placement) (d : Fin 3) (p : Cell) : Cell := if P.sgn d = 1 then P.g p else mv (P.dir d) 1 (P.g p)

/-- Fluxes on the sides of the new grid; they change sign with the direction. -/
def Placement.flux (P : Placement) (f : Fin 3 → Cell → ℝ) : Fin 3 → Cell → ℝ := fun d p => P.sgn d * f (P.dir d) (P.side d p)

/-- Coefficients on the sides of the new grid. -/
def Placement.coef (P : Placement) (f : Fin 3 → Cell → ℝ) : Fin 3 → Cell → ℝ := fun d p => f (P.dir d) (P.side d p)

/-- The three indices of a cell. -/
def co (p : Cell) : Fin 3 → ℤ := ![p.1, p.2.1, p.2.2]

/-! ## Lemmas -/

theorem sides_placed (P : Placement) (u : Cell → ℝ) (d : Fin 3) (p : Cell) :
    (P.sgn d = 1 ∧ sides (u ∘ P.g) d p = sides u (P.dir d) (P.side d p)) ∨
    (P.sgn d = -1 ∧ sides (u ∘ P.g) d p = (sides u (P.dir d) (P.side d p)).swap) := by
  rcases P.sgn_one d with h | h
  · left
    refine ⟨h, ?_⟩
    simp [sides, Placement.side, h, P.step]
  · right
    refine ⟨h, ?_⟩
    have : ¬(-1 : ℤ) = 1 := by decide
    simp only [sides, Placement.side, h, this, if_false, Function.comp, P.step, Prod.swap, mv_down_up]
    norm_num

theorem side_down (P : Placement) (u : Cell → ℝ) (d : Fin 3) (p : Cell) :
    u (P.g p) - u (P.g (mv d (-1) p)) = P.sgn d * (u (P.side d p) - u (mv (P.dir d) (-1) (P.side d p))) := by
  rcases sides_placed P u d p with ⟨h, e⟩ | ⟨h, e⟩ <;> simp only [sides, Prod.swap, Prod.mk.injEq, Function.comp] at e <;>
    rw [e.1, e.2, h] <;> push_cast <;> ring

theorem rate_swap (R : ℝ) (m : Arrhenius) (t : Pair) : rate R m t.swap = rate R m t := by
  simp only [rate, Prod.swap, add_comm]

theorem twoPhase_swap (it at_ : Char) (R : ℝ) (l s : Arrhenius) (a b : Pair) :
    twoPhase it at_ R l s a.swap b.swap = twoPhase it at_ R l s a b := by
  simp only [twoPhase, avgP_swap, rate_swap]

theorem kksCoef_swap (it at_ : Char) (d : ℝ) (a b c : Pair) : kksCoef it at_ d a.swap b.swap c.swap = kksCoef it at_ d a b c := by
  simp only [kksCoef, avgP_swap]
  simp only [Prod.swap]
  rw [add_comm b.2, add_comm c.2]

theorem phaseDiv_eq (eps : ℝ) (h : Fin 3 → ℝ) (phi : Cell → ℝ) (p : Cell) :
    phaseDiv eps h phi p = ∑ d, eps * eps * (phi (mv d 1 p) - phi p - (phi p - phi (mv d (-1) p))) / h d ^ 2 := by
  obtain ⟨i, j, k⟩ := p
  simp only [phaseDiv, PhaseRHS.div3, gradFlux3X, gradFlux3Y, gradFlux3Z, f3, Fin.sum_univ_three, mv, ← sub_eq_add_neg, add_sub_cancel_right]
  ring

/-- Two neighbours of a cell, whatever the direction in which they are met. -/
theorem neighbours (P : Placement) (u : Cell → ℝ) (d : Fin 3) (p : Cell) :
    u (P.g (mv d 1 p)) - u (P.g p) - (u (P.g p) - u (P.g (mv d (-1) p))) =
      u (mv (P.dir d) 1 (P.g p)) - u (P.g p) - (u (P.g p) - u (mv (P.dir d) (-1) (P.g p))) := by
  rw [P.step, P.step]
  rcases P.sgn_one d with h | h <;> rw [h] <;> norm_num
  ring

theorem phaseDiv_placed (P : Placement) (eps : ℝ) (h : Fin 3 → ℝ) (phi : Cell → ℝ) (p : Cell) :
    phaseDiv eps (h ∘ P.dir) (phi ∘ P.g) p = phaseDiv eps h phi (P.g p) := by
  rw [phaseDiv_eq, phaseDiv_eq,
    ← Equiv.sum_comp P.dir fun e => eps * eps * (phi (mv e 1 (P.g p)) - phi (P.g p) - (phi (P.g p) - phi (mv e (-1) (P.g p)))) / h e ^ 2]
  exact Finset.sum_congr rfl fun d _ => by simp only [Function.comp, neighbours]

/-! ## C129 -/

/-- **C129** (phase): the rate of a cell is that of the same cell of the sample. -/
theorem c129_phase (P : Placement) (kind : Kind) (ty : Char) (E : Energies) (eps scale : ℝ) (h : Fin 3 → ℝ) (vmL vmA : ℝ)
    (mob phi cl ca : Cell → ℝ) (p : Cell) :
    phaseRate kind ty E eps scale (h ∘ P.dir) vmL vmA (mob ∘ P.g) (phi ∘ P.g) (cl ∘ P.g) (ca ∘ P.g) p =
      phaseRate kind ty E eps scale h vmL vmA mob phi cl ca (P.g p) := by
  simp only [phaseRate, phaseDiv_placed, Function.comp]

/-- **C129** (coefficients): the coefficients of a side are those of the same side of the sample. -/
theorem c129_coeffs (P : Placement) (it at_ : Char) (R : ℝ) (l s : Arrhenius) (phi temp : Cell → ℝ) (d : Fin 3) (p : Cell) :
    twoPhases it at_ R l s (phi ∘ P.g) (temp ∘ P.g) d p = twoPhases it at_ R l s phi temp (P.dir d) (P.side d p) := by
  rw [twoPhases_eq, twoPhases_eq]
  rcases sides_placed P phi d p with ⟨h, e⟩ | ⟨h, e⟩ <;> rcases sides_placed P temp d p with ⟨h', e'⟩ | ⟨h', e'⟩
  · rw [e, e']
  · rw [h] at h'; norm_num at h'
  · rw [h] at h'; norm_num at h'
  · rw [e, e', twoPhase_swap]

/-- **C129** (flux as a sum over the phases): the flux through a side is that through the same side of the sample, its sign that of the
direction. -/
theorem c129_ebs (P : Placement) (h : Fin 3 → ℝ) (dl da : Fin 3 → Cell → ℝ) (cl ca : Cell → ℝ) :
    ebs (h ∘ P.dir) (P.coef dl) (P.coef da) (cl ∘ P.g) (ca ∘ P.g) = P.flux (ebs h dl da cl ca) := by
  funext d p
  have a := side_down P cl d p
  have b := side_down P ca d p
  rw [ebs_value, Placement.flux, ebs_value]
  simp only [Function.comp, Placement.coef]
  rw [a, b]
  ring

/-- **C129** (flux in phase-gradient form): the same; the flux is defined on a side when it is on the same side of the sample. -/
theorem c129_kks (P : Placement) (it at_ : Char) (R : ℝ) (l s : Arrhenius) (h : Fin 3 → ℝ) (temp phi cl ca conc : Cell → ℝ) (d : Fin 3)
    (p : Cell) :
    kks it at_ R l s (h ∘ P.dir) (temp ∘ P.g) (phi ∘ P.g) (cl ∘ P.g) (ca ∘ P.g) (conc ∘ P.g) d p =
      (kks it at_ R l s h temp phi cl ca conc (P.dir d) (P.side d p)).map fun f : ℝ => (P.sgn d : ℝ) * f := by
  have ef : ∀ df cp, concentrationFlux (h ∘ P.dir) (conc ∘ P.g) (phi ∘ P.g) df cp d p =
      P.sgn d * concentrationFlux h conc phi df cp (P.dir d) (P.side d p) := fun df cp => by
    simp only [concentrationFlux, Function.comp, side_down P conc d p, side_down P phi d p]
    ring
  have all : ∀ u : Cell → ℝ, (P.sgn d = 1 → sides (u ∘ P.g) d p = sides u (P.dir d) (P.side d p)) ∧
      (P.sgn d = -1 → sides (u ∘ P.g) d p = (sides u (P.dir d) (P.side d p)).swap) := fun u => by
    rcases sides_placed P u d p with ⟨h, e⟩ | ⟨h, e⟩
    · exact ⟨fun _ => e, fun h' => by rw [h] at h'; norm_num at h'⟩
    · exact ⟨fun h' => by rw [h] at h'; norm_num at h', fun _ => e⟩
  have ed : kksDiff it at_ R l s (sides (phi ∘ P.g) d p) (sides (temp ∘ P.g) d p) =
      kksDiff it at_ R l s (sides phi (P.dir d) (P.side d p)) (sides temp (P.dir d) (P.side d p)) := by
    rcases P.sgn_one d with hs | hs
    · rw [(all phi).1 hs, (all temp).1 hs]
    · rw [(all phi).2 hs, (all temp).2 hs, kksDiff, twoPhase_swap]; rfl
  have ec : ∀ df, kksCoef it at_ df (sides (phi ∘ P.g) d p).swap (sides (cl ∘ P.g) d p).swap (sides (ca ∘ P.g) d p).swap =
      kksCoef it at_ df (sides phi (P.dir d) (P.side d p)).swap (sides cl (P.dir d) (P.side d p)).swap
        (sides ca (P.dir d) (P.side d p)).swap := fun df => by
    rcases P.sgn_one d with hs | hs
    · rw [(all phi).1 hs, (all cl).1 hs, (all ca).1 hs]
    · rw [(all phi).2 hs, (all cl).2 hs, (all ca).2 hs, kksCoef_swap]
  simp only [kks, ed, ec, ef]
  rcases kksDiff it at_ R l s (sides phi (P.dir d) (P.side d p)) (sides temp (P.dir d) (P.side d p)) with _ | df
  · rfl
  · simp only [Option.bind_some, Option.map_map]
    rfl

/-- **C129** (solute): fluxes that move along make the compositions move along. -/
theorem c129_solute (P : Placement) (h : Fin 3 → ℝ) (m : ℝ) (f : Fin 3 → Cell → ℝ) (p : Cell) :
    soluteRate (h ∘ P.dir) m (P.flux f) p = soluteRate h m f (P.g p) := by
  rw [soluteRate_eq, soluteRate_eq, ← Equiv.sum_comp P.dir fun e => 1 / h e * (f e (mv e 1 (P.g p)) - f e (P.g p))]
  congr 1
  refine Finset.sum_congr rfl fun d _ => ?_
  simp only [Function.comp, Placement.flux, Placement.side, P.step]
  rcases P.sgn_one d with hs | hs
  · simp [hs]
  · have : ¬(-1 : ℤ) = 1 := by decide
    simp only [hs, this, if_false, mul_one, mv_up_down]
    push_cast
    ring

/-! ### Sums over a period -/

theorem co_mv (d e : Fin 3) (a : ℤ) (p : Cell) : co (mv d a p) e = co p e + if e = d then a else 0 := by
  obtain ⟨i, j, k⟩ := p
  fin_cases d <;> fin_cases e <;> simp [co, mv]

theorem co_inj {p q : Cell} (h : ∀ e, co p e = co q e) : p = q := by
  obtain ⟨i, j, k⟩ := p
  obtain ⟨i', j', k'⟩ := q
  have a := h 0
  have b := h 1
  have c := h 2
  simp only [co, Matrix.cons_val] at a b c
  rw [a, b, c]

/-- A cell from its steps. -/
theorem steps_from (q p : Cell) : p = mv 0 (co p 0 - co q 0) (mv 1 (co p 1 - co q 1) (mv 2 (co p 2 - co q 2) q)) := by
  refine co_inj fun e => ?_
  simp only [co_mv]
  fin_cases e <;> simp

theorem co_g (P : Placement) (p q : Cell) (d : Fin 3) : co (P.g p) (P.dir d) - co (P.g q) (P.dir d) = P.sgn d * (co p d - co q d) := by
  rw [steps_from q p]
  simp only [P.step, co_mv, P.dir.injective.eq_iff]
  fin_cases d <;> simp

/-- A periodic function takes equal values in cells a whole number of periods apart. -/
theorem per_eq {N : Fin 3 → ℕ} {F : Cell → ℝ} (hp : Per3 N F) {p q : Cell} (h : ∀ e, ∃ n : ℤ, co p e = co q e + n * N e) : F p = F q := by
  obtain ⟨a, ha⟩ := h 0
  obtain ⟨b, hb⟩ := h 1
  obtain ⟨c, hc⟩ := h 2
  rw [steps_from q p, ha, hb, hc]
  simp only [add_sub_cancel_left]
  rw [Per3.steps hp, Per3.steps hp, Per3.steps hp]

/-- The cells of a period. -/
noncomputable def cells (N : Fin 3 → ℕ) (lo : Cell) : Finset Cell :=
  (Finset.Ico lo.1 (lo.1 + N 0)) ×ˢ (Finset.Ico lo.2.1 (lo.2.1 + N 1)) ×ˢ (Finset.Ico lo.2.2 (lo.2.2 + N 2))

theorem mem_cells {N : Fin 3 → ℕ} {lo p : Cell} : p ∈ cells N lo ↔ ∀ e, co lo e ≤ co p e ∧ co p e < co lo e + N e := by
  obtain ⟨i, j, k⟩ := p
  simp only [cells, Finset.mem_product, Finset.mem_Ico, Fin.forall_fin_succ, co]
  simp

theorem card_cells (N : Fin 3 → ℕ) (lo : Cell) : (cells N lo).card = ∏ d, N d := by
  simp [cells, Finset.card_product, Fin.prod_univ_three, mul_assoc]

theorem sum_Ico (F : ℤ → ℝ) (l : ℤ) (n : ℕ) : ∑ i ∈ Finset.Ico l (l + n), F i = ∑ a ∈ Finset.range n, F (l + (a : ℤ)) := by
  symm
  refine Finset.sum_bij (fun a _ => l + (a : ℤ)) (fun a ha => ?_) (fun a _ b _ h => ?_) (fun b hb => ?_) (fun _ _ => rfl)
  · rw [Finset.mem_Ico]; rw [Finset.mem_range] at ha; omega
  · omega
  · rw [Finset.mem_Ico] at hb
    exact ⟨(b - l).toNat, by rw [Finset.mem_range]; omega, by omega⟩

theorem cellSum3_cells (N : Fin 3 → ℕ) (lo : Cell) (F : Cell → ℝ) : cellSum3 N lo F = ∑ p ∈ cells N lo, F p := by
  rw [cells, Finset.sum_product, Finset.sum_congr rfl fun i _ => Finset.sum_product _ _ _, sum_Ico _ lo.1 (N 0)]
  simp only [sum_Ico]
  unfold cellSum3
  rw [Finset.sum_comm]
  conv_lhs =>
    arg 2
    ext b
    rw [Finset.sum_comm]
  rw [Finset.sum_comm]

/-- The cell of the period at `lo` that a cell stands for. -/
def wrap (N : Fin 3 → ℕ) (lo p : Cell) : Cell :=
  (lo.1 + (p.1 - lo.1) % N 0, lo.2.1 + (p.2.1 - lo.2.1) % N 1, lo.2.2 + (p.2.2 - lo.2.2) % N 2)

theorem co_wrap (N : Fin 3 → ℕ) (lo p : Cell) (e : Fin 3) : co (wrap N lo p) e = co lo e + (co p e - co lo e) % N e := by
  fin_cases e <;> rfl

/-- The sum over a period does not depend on the placement. -/
theorem cellSum3_placed (P : Placement) {N : Fin 3 → ℕ} (hN : ∀ d, 0 < N d) (lo lo' : Cell) {F : Cell → ℝ} (hp : Per3 N F) :
    cellSum3 (N ∘ P.dir) lo' (F ∘ P.g) = cellSum3 N lo F := by
  rw [cellSum3_cells, cellSum3_cells]
  have hN' : ∀ e, (0 : ℤ) < N e := fun e => by exact_mod_cast hN e
  have hval : ∀ p, F (P.g p) = F (wrap N lo (P.g p)) := fun p => per_eq hp fun e =>
    ⟨(co (P.g p) e - co lo e) / N e, by
      rw [co_wrap]
      have := Int.emod_add_mul_ediv (co (P.g p) e - co lo e) (N e)
      linarith [mul_comm ((co (P.g p) e - co lo e) / (N e : ℤ)) (N e : ℤ)]⟩
  have hmap : ∀ p ∈ cells (N ∘ P.dir) lo', wrap N lo (P.g p) ∈ cells N lo := fun p _ => mem_cells.2 fun e => by
    rw [co_wrap]
    have a := Int.emod_nonneg (co (P.g p) e - co lo e) (hN' e).ne'
    have b := Int.emod_lt_of_pos (co (P.g p) e - co lo e) (hN' e)
    omega
  have hinj : Set.InjOn (fun p => wrap N lo (P.g p)) (cells (N ∘ P.dir) lo') := by
    intro p hp' q hq' heq
    have heq' : wrap N lo (P.g p) = wrap N lo (P.g q) := heq
    refine co_inj fun d => ?_
    have e1 : co (wrap N lo (P.g p)) (P.dir d) = co (wrap N lo (P.g q)) (P.dir d) := by rw [heq']
    rw [co_wrap, co_wrap, add_right_inj] at e1
    have e2 : (N (P.dir d) : ℤ) ∣ P.sgn d * (co p d - co q d) := by
      rw [← co_g]
      have := Int.ModEq.dvd (show (co (P.g q) (P.dir d) - co lo (P.dir d)) ≡ (co (P.g p) (P.dir d) - co lo (P.dir d)) [ZMOD N (P.dir d)]
        from e1.symm)
      rwa [sub_sub_sub_cancel_right] at this
    have e3 : (N (P.dir d) : ℤ) ∣ co p d - co q d := by
      rcases P.sgn_one d with hs | hs
      · rwa [hs, one_mul] at e2
      · rw [hs, neg_one_mul] at e2; exact (dvd_neg).1 e2
    have b1 := mem_cells.1 (Finset.mem_coe.1 hp') d
    have b2 := mem_cells.1 (Finset.mem_coe.1 hq') d
    simp only [Function.comp] at b1 b2
    have e4 := Int.eq_zero_of_abs_lt_dvd e3 (by rw [abs_lt]; constructor <;> omega)
    omega
  have hcard : (cells N lo).card ≤ (cells (N ∘ P.dir) lo').card := by
    rw [card_cells, card_cells]
    exact (Equiv.prod_comp P.dir fun e => N e).symm.le
  have himg : (cells (N ∘ P.dir) lo').image (fun p => wrap N lo (P.g p)) = cells N lo :=
    Finset.eq_of_subset_of_card_le (fun q hq => by
      obtain ⟨p, hp', rfl⟩ := Finset.mem_image.1 hq
      exact hmap p hp') (by rw [Finset.card_image_of_injOn hinj]; exact hcard)
  rw [← himg, Finset.sum_image hinj]
  exact Finset.sum_congr rfl fun p _ => hval p

/-- **C129** (energy): over a period the energy is that of the sample. -/
theorem c129_energy (P : Placement) (ty : Char) (hty : ty ∈ clamped) (E : Energies) (eps scale : ℝ) (h : Fin 3 → ℝ) (vmL vmA w : ℝ)
    (N : Fin 3 → ℕ) (hN : ∀ d, 0 < N d) (lo lo' : Cell) (phi cl ca : Cell → ℝ) (hphi : Per3 N phi) (hl : Per3 N cl) (ha : Per3 N ca) :
    energy ty E eps scale (h ∘ P.dir) vmL vmA w (N ∘ P.dir) lo' (phi ∘ P.g) (cl ∘ P.g) (ca ∘ P.g) =
      energy ty E eps scale h vmL vmA w N lo phi cl ca := by
  obtain ⟨H, hH, -⟩ := fraction ty hty
  have whole : ∀ (h : Fin 3 → ℝ) (N : Fin 3 → ℕ) (lo : Cell) (phi cl ca : Cell → ℝ), energy ty E eps scale h vmL vmA w N lo phi cl ca =
      some (cellSum3 N lo fun p => (-(1 / 2) * phaseDiv eps h phi p * phi p + scale * (16 * phi p * phi p * (1 - phi p) * (1 - phi p))
        + ((1 - H (phi p)) * (invVm vmL * E.fL (cl p)) + H (phi p) * (invVm vmA * E.fA (ca p)))) * w) := by
    intro h N lo phi cl ca
    rw [energy_some ty E eps scale h vmL vmA w N lo phi cl ca hH]
    congr 1
    simp only [S3, cellSum3, ← Finset.sum_add_distrib]
    refine Finset.sum_congr rfl fun c _ => Finset.sum_congr rfl fun b _ => Finset.sum_congr rfl fun a _ => ?_
    simp only [interfaceCell3, phaseDiv_eq, Fin.sum_univ_three, mv, f3, sub_eq_add_neg]
    ring
  rw [whole, whole]
  congr 1
  rw [← cellSum3_placed P hN lo lo' (F := fun p => (-(1 / 2) * phaseDiv eps h phi p * phi p
    + scale * (16 * phi p * phi p * (1 - phi p) * (1 - phi p))
    + ((1 - H (phi p)) * (invVm vmL * E.fL (cl p)) + H (phi p) * (invVm vmA * E.fA (ca p)))) * w)]
  · simp only [phaseDiv_placed]
    rfl
  · intro d p
    have hd : phaseDiv eps h phi (mv d (N d) p) = phaseDiv eps h phi p := by
      rw [phaseDiv_eq, phaseDiv_eq]
      refine Finset.sum_congr rfl fun e _ => ?_
      rw [mv_comm e d, mv_comm e d, hphi, hphi, hphi]
    beta_reduce
    rw [hd, hphi, hl, ha]

/-- **C129** (run): the sample laid otherwise into the grid runs through the same states. -/
theorem c129_run (P : Placement) (kind : Kind) (ty it at_ : Char) (E : Energies) (eps scale : ℝ) (h : Fin 3 → ℝ) (vm m R T : ℝ)
    (l s : Arrhenius) (N : Fin 3 → ℕ) (mob phi c cl ca : ℝ → Cell → ℝ)
    (hr : Run kind ty it at_ E eps scale h vm m R T l s N mob phi c cl ca) :
    Run kind ty it at_ E eps scale (h ∘ P.dir) vm m R T l s (N ∘ P.dir) (fun t => mob t ∘ P.g) (fun t => phi t ∘ P.g) (fun t => c t ∘ P.g)
      (fun t => cl t ∘ P.g) (fun t => ca t ∘ P.g) := by
  have per : ∀ {u : Cell → ℝ}, Per3 N u → Per3 (N ∘ P.dir) (u ∘ P.g) := fun {u} hu d p => by
    simp only [Function.comp, P.step]
    exact Per3.steps hu (P.dir d) (P.sgn d) _
  refine ⟨fun t => per (hr.perPhi t), fun t => per (hr.perC t), fun t => ⟨(hr.sloped t).1, fun e p => (hr.sloped t).2 e _⟩,
    fun t p => hr.unit t _, fun t p => hr.split t _, fun t => ?_⟩
  obtain ⟨dl, da, hco, v, hv, hrate, hc⟩ := hr.moves t
  refine ⟨P.coef dl, P.coef da, fun d p => ?_, v ∘ P.g, fun p => hv _, fun p => ?_, fun p => ?_⟩
  · have := c129_coeffs P it at_ R l s (phi t) (fun _ => T) d p
    rw [hco] at this
    exact this
  · rw [c129_phase]; exact hrate _
  · rw [c129_ebs, c129_solute]; exact hc _

/-- **C129** (all placements): whatever the order of the directions, whichever of them are run through backwards and wherever the first
cell comes to lie, there is exactly one placement. -/
theorem c129_placements (dir : Equiv.Perm (Fin 3)) (sgn : Fin 3 → ℤ) (hs : ∀ d, sgn d = 1 ∨ sgn d = -1) (o : Cell) :
    ∃ P : Placement, P.dir = dir ∧ P.sgn = sgn ∧ P.g (0, 0, 0) = o ∧
      ∀ Q : Placement, Q.dir = dir → Q.sgn = sgn → Q.g (0, 0, 0) = o → Q = P := by
  let c : Cell → Fin 3 → ℤ := fun p e => co o e + sgn (dir.symm e) * co p (dir.symm e)
  let g : Cell → Cell := fun p => (c p 0, c p 1, c p 2)
  have hg : ∀ p e, co (g p) e = co o e + sgn (dir.symm e) * co p (dir.symm e) := fun p e => by fin_cases e <;> rfl
  refine ⟨⟨dir, sgn, g, hs, fun d a p => co_inj fun e => ?_⟩, rfl, rfl, co_inj fun e => ?_, fun Q hd hss hq => ?_⟩
  · rw [hg, co_mv, co_mv, hg]
    by_cases he : e = dir d
    · subst he; simp; ring
    · have : dir.symm e ≠ d := fun h => he (by rw [← h, Equiv.apply_symm_apply])
      simp [he, this]
  · show co (g (0, 0, 0)) e = _
    rw [hg]
    have : co (0, 0, 0) (dir.symm e) = 0 := by generalize dir.symm e = x; fin_cases x <;> rfl
    rw [this]; ring
  · have e1 : Q.g = g := by
      funext p
      refine co_inj fun e => ?_
      have := co_g Q p (0, 0, 0) (dir.symm e)
      have z : co (0, 0, 0) (dir.symm e) = 0 := by generalize dir.symm e = x; fin_cases x <;> rfl
      rw [hd, hss, hq, Equiv.apply_symm_apply, z] at this
      rw [hg]; linarith
    cases Q
    simp only at hd hss e1
    subst hd hss e1
    rfl

/-! ### Examples -/

/-- A quarter turn about z: new x is old y, new y is old x backwards; the composition at the origin flows the same. -/
example : ∃ P : Placement, P.dir = Equiv.swap 0 1 ∧ P.sgn = ![1, -1, 1] ∧ P.g (1, 2, 3) = (-2, 1, 3) := by
  obtain ⟨P, hd, hs, h0, -⟩ := c129_placements (Equiv.swap 0 1) ![1, -1, 1] (by decide) (0, 0, 0)
  refine ⟨P, hd, hs, ?_⟩
  have := P.step
  rw [show ((1, 2, 3) : Cell) = mv 0 1 (mv 1 2 (mv 2 3 (0, 0, 0))) by rfl]
  rw [P.step, P.step, P.step, h0, hd, hs]
  rfl

end AMPE.AlloyPlacement.Props
