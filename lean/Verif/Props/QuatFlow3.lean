import Verif.Model.QuatFlow3
import Verif.Props.QuatDissipation

/-! # C118: orientation relaxation in three dimensions, with and without crystal symmetry -/

namespace AMPE.QuatFlow3.Props

open AMPE.QuatFlow3 AMPE.Tagging AMPE.Quat AMPE.Quat.Props AMPE.OrientSolve
open AMPE.OrientSolve.Props
open AMPE.QuatFlow (CoefParams flux rotBy quatfindsymm)
open AMPE.QuatFlow.Props hiding Per cellSum gradEnergy Turn driving Dissipates Related
open AMPE.PhaseRHS.Props (sum_shift_neg)

/-! ## Specification -/

/-- Specification: the field repeats with period `N d` cells in each direction `d`. -/
def Per3 {α : Type} (N : Fin 3 → ℕ) (F : Cell → α) : Prop := ∀ d p, F (mv d (N d) p) = F p

/-- Specification: sum over the cells of one period. -/
def cellSum3 (N : Fin 3 → ℕ) (lo : Cell) (F : Cell → ℝ) : ℝ :=
  ∑ c ∈ Finset.range (N 2), ∑ b ∈ Finset.range (N 1), ∑ a ∈ Finset.range (N 0),
    F (lo.1 + (a : ℤ), lo.2.1 + (b : ℤ), lo.2.2 + (c : ℤ))

/-- Specification: gradient energy per cell volume, `½ Σ_faces D |δq|² / h²`, where `δq` is the difference between a cell's orientation
and the copy (`S`) of its lower neighbours' orientations, and `D = -c` the face diffusion coefficient. -/
noncomputable def gradEnergy3 {n : ℕ} (N : Fin 3 → ℕ) (lo : Cell) (h : Fin 3 → ℝ) (c : Fin 3 → Cell → ℝ)
    (S : Fin 3 → Cell → QVec n → QVec n) (q : QField3 n) : ℝ :=
  cellSum3 N lo fun p => ∑ d, 1 / 2 * (-c d p) * dsq (q p) (S d p (q (mv d (-1) p))) / h d ^ 2

/-- Specification: the face coefficients of the program for the rotations `R` of the differences and `Rg` of the gradients. -/
def Coefs {n : ℕ} (P : CoefParams) (G : Grid3) (R Rg : RotOps3 n) (q : QField3 n) (c : Fin 3 → Cell → ℝ) : Prop :=
  ∀ d p, coef3 P G (sideGrad3 G.h Rg (qdiff3 R.r q)) d p = some (c d p)

/-- Specification: the rate of the program lowers the gradient energy taken with the program's own face coefficients, at the exact
speed `Σ |rate|² / mobility`. -/
def Dissipates3 {n : ℕ} (N : Fin 3 → ℕ) (lo : Cell) (checks symm useDiffs : Bool) (P : CoefParams) (G : Grid3)
    (k : Fin 3 → Cell → ℤ) (q : QField3 n) (R Rg : RotOps3 n) : Prop :=
  ∃ (c : Fin 3 → Cell → ℝ) (rate : QField3 n), Coefs P G R Rg q c ∧
    (∀ p, evaluateQuatRHS3 checks symm useDiffs false P G k q p = some (rate p)) ∧
    HasDerivAt (fun t : ℝ => gradEnergy3 N lo G.h c R.r (fun p => q p + t • rate p))
      (-cellSum3 N lo fun p => dot (rate p) (rate p) / G.mob p) 0

/-- Specification: divergence of the fluxes of a cell, the upper ones turned back by `L.ri`. -/
noncomputable def driving3 {n : ℕ} (h : Fin 3 → ℝ) (c : Fin 3 → Cell → ℝ) (L : RotOps3 n) (s : Fin 3 → QField3 n) : QField3 n :=
  fun p => ∑ d, (1 / h d ^ 2) • (c d (mv d 1 p) • L.ri d (mv d 1 p) (s d (mv d 1 p)) - c d p • s d p)

/-! ## Cells -/

theorem mv_comm (d e : Fin 3) (a b : ℤ) (p : Cell) : mv d a (mv e b p) = mv e b (mv d a p) := by
  obtain ⟨i, j, k⟩ := p
  fin_cases d <;> fin_cases e <;> simp [mv] <;> ring

theorem mv_add (d : Fin 3) (a b : ℤ) (p : Cell) : mv d a (mv d b p) = mv d (b + a) p := by
  obtain ⟨i, j, k⟩ := p
  fin_cases d <;> simp [mv] <;> ring

theorem mv_zero (d : Fin 3) (p : Cell) : mv d 0 p = p := by
  obtain ⟨i, j, k⟩ := p
  fin_cases d <;> simp [mv]

theorem mv_down_up (d : Fin 3) (p : Cell) : mv d (-1) (mv d 1 p) = p := by rw [mv_add]; exact mv_zero d p
theorem mv_up_down (d : Fin 3) (p : Cell) : mv d 1 (mv d (-1) p) = p := by rw [mv_add]; exact mv_zero d p

section per

variable {α : Type} {N : Fin 3 → ℕ} {F : Cell → α}

theorem Per3.mv (h : Per3 N F) (e : Fin 3) (a : ℤ) : Per3 N fun p => F (mv e a p) := fun d p => by
  beta_reduce; rw [mv_comm e d, h]

end per

theorem cellSum3_shift (N : Fin 3 → ℕ) (lo : Cell) (F : Cell → ℝ) (h : Per3 N F) (d : Fin 3) :
    cellSum3 N lo (fun p => F (mv d (-1) p)) = cellSum3 N lo F := by
  fin_cases d
  · refine Finset.sum_congr rfl fun c _ => Finset.sum_congr rfl fun b _ => ?_
    have := sum_shift_neg (N 0) lo.1 (fun i => F (i, lo.2.1 + b, lo.2.2 + c)) (fun i => h 0 (i, _, _)) 1
    simpa [mv, sub_eq_add_neg] using this
  · refine Finset.sum_congr rfl fun c _ => ?_
    rw [Finset.sum_comm]
    conv_rhs => rw [Finset.sum_comm]
    refine Finset.sum_congr rfl fun a _ => ?_
    have := sum_shift_neg (N 1) lo.2.1 (fun j => F (lo.1 + a, j, lo.2.2 + c)) (fun j => h 1 (_, j, _)) 1
    simpa [mv, sub_eq_add_neg] using this
  · unfold cellSum3
    rw [Finset.sum_comm]
    conv_rhs => rw [Finset.sum_comm]
    refine Finset.sum_congr rfl fun b _ => ?_
    rw [Finset.sum_comm]
    conv_rhs => rw [Finset.sum_comm]
    refine Finset.sum_congr rfl fun a _ => ?_
    have := sum_shift_neg (N 2) lo.2.2 (fun k => F (lo.1 + a, lo.2.1 + b, k)) (fun k => h 2 (_, _, k)) 1
    simpa [mv, sub_eq_add_neg] using this

theorem cellSum3_add (N : Fin 3 → ℕ) (lo : Cell) (F G : Cell → ℝ) :
    cellSum3 N lo (fun p => F p + G p) = cellSum3 N lo F + cellSum3 N lo G := by
  simp only [cellSum3, Finset.sum_add_distrib]

theorem cellSum3_dir (N : Fin 3 → ℕ) (lo : Cell) (F : Fin 3 → Cell → ℝ) :
    cellSum3 N lo (fun p => ∑ d, F d p) = ∑ d, cellSum3 N lo (F d) := by
  simp only [Fin.sum_univ_three, cellSum3_add]

theorem cellSum3_congr (N : Fin 3 → ℕ) (lo : Cell) (F G : Cell → ℝ) (h : ∀ p, F p = G p) :
    cellSum3 N lo F = cellSum3 N lo G := by rw [show F = G from funext h]

theorem cellSum3_neg (N : Fin 3 → ℕ) (lo : Cell) (F : Cell → ℝ) :
    cellSum3 N lo (fun p => -F p) = -cellSum3 N lo F := by
  simp only [cellSum3, Finset.sum_neg_distrib]

/-! ## Energy -/

/-- Rotations that add: `L` holds the linear parts of `R.r` and their adjoints. -/
structure Turn3 {n : ℕ} (R L : RotOps3 n) : Prop where
  add : ∀ d p v w, R.r d p (v + w) = R.r d p v + L.r d p w
  smul : ∀ d p (t : ℝ) v, L.r d p (t • v) = t • L.r d p v
  adj : ∀ d p v w, dot (L.r d p v) w = dot v (L.ri d p w)

theorem sum_dot {n : ℕ} (F : Fin 3 → QVec n) (v : QVec n) : dot (∑ d, F d) v = ∑ d, dot (F d) v := by
  simp only [Fin.sum_univ_three, add_dot]

section variation

variable {n : ℕ} {R L : RotOps3 n} (hT : Turn3 R L) {N : Fin 3 → ℕ} (lo : Cell)

theorem qdiff3_per (R : RotOps3 n) (q : QField3 n) (pq : Per3 N q) (pr : ∀ d, Per3 N (R.r d)) (d : Fin 3) :
    Per3 N (qdiff3 R.r q d) := fun e p => by
  have := pq.mv d (-1) e p
  beta_reduce at this
  simp only [qdiff3, pq e p, pr d e p, this]

include hT

/-- Derivative of the energy in a periodic direction. -/
theorem energy_variation3 (h : Fin 3 → ℝ) (c : Fin 3 → Cell → ℝ) (q v : QField3 n) (pc : ∀ d, Per3 N (c d)) (pq : Per3 N q)
    (pv : Per3 N v) (pr : ∀ d, Per3 N (R.r d)) (pi : ∀ d, Per3 N (L.ri d)) :
    HasDerivAt (fun t : ℝ => gradEnergy3 N lo h c R.r (fun p => q p + t • v p))
      (cellSum3 N lo fun p => dot (driving3 h c L (qdiff3 R.r q) p) (v p)) 0 := by
  have ps := qdiff3_per R q pq pr
  set s := qdiff3 R.r q with hs
  have ex : ∀ (t : ℝ) d p, dsq (q p + t • v p) (R.r d p (q (mv d (-1) p) + t • v (mv d (-1) p)))
      = dot (s d p + t • (v p - L.r d p (v (mv d (-1) p)))) (s d p + t • (v p - L.r d p (v (mv d (-1) p)))) := by
    intro t d p
    rw [dsq_eq_dot, hT.add, hT.smul]
    have : q p + t • v p - (R.r d p (q (mv d (-1) p)) + t • L.r d p (v (mv d (-1) p)))
        = s d p + t • (v p - L.r d p (v (mv d (-1) p))) := by
      funext m; simp only [s, qdiff3, Pi.add_apply, Pi.sub_apply, Pi.smul_apply, smul_eq_mul]; ring
    rw [this]
  have cell : ∀ p, HasDerivAt (fun t : ℝ =>
      ∑ d, 1 / 2 * (-c d p) * dsq (q p + t • v p) (R.r d p (q (mv d (-1) p) + t • v (mv d (-1) p))) / h d ^ 2)
      (∑ d, (-(c d p / h d ^ 2 * dot (s d p) (v p)) + c d p / h d ^ 2 * dot (L.ri d p (s d p)) (v (mv d (-1) p)))) 0 := by
    intro p
    refine HasDerivAt.fun_sum fun d _ => ?_
    simp only [ex]
    refine (((dsq_line (s d p) (v p - L.r d p (v (mv d (-1) p)))).const_mul (1 / 2 * (-c d p))).div_const (h d ^ 2)).congr_deriv ?_
    rw [dot_sub, dot_comm (s d p) (L.r d p _), hT.adj, dot_comm (v (mv d (-1) p))]
    ring
  have total : HasDerivAt (fun t : ℝ => gradEnergy3 N lo h c R.r (fun p => q p + t • v p))
      (cellSum3 N lo fun p => ∑ d, (-(c d p / h d ^ 2 * dot (s d p) (v p))
        + c d p / h d ^ 2 * dot (L.ri d p (s d p)) (v (mv d (-1) p)))) 0 := by
    unfold gradEnergy3 cellSum3
    exact HasDerivAt.fun_sum fun c _ => HasDerivAt.fun_sum fun b _ => HasDerivAt.fun_sum fun a _ => cell _
  refine total.congr_deriv ?_
  rw [cellSum3_dir]
  have e : ∀ p, dot (driving3 h c L s p) (v p) = ∑ d, (-(c d p / h d ^ 2 * dot (s d p) (v p))
      + c d (mv d 1 p) / h d ^ 2 * dot (L.ri d (mv d 1 p) (s d (mv d 1 p))) (v p)) := by
    intro p
    simp only [driving3]
    rw [sum_dot]
    refine Finset.sum_congr rfl fun d _ => ?_
    rw [smul_dot, sub_dot, smul_dot, smul_dot]; ring
  rw [cellSum3_congr N lo _ _ e, cellSum3_dir]
  refine Finset.sum_congr rfl fun d _ => ?_
  rw [cellSum3_add, cellSum3_add]
  congr 1
  have := cellSum3_shift N lo (fun p => c d (mv d 1 p) / h d ^ 2 * dot (L.ri d (mv d 1 p) (s d (mv d 1 p))) (v p)) (by
    intro e p
    have a1 := (pc d).mv d 1 e p
    have a2 := (pi d).mv d 1 e p
    have a3 := (ps d).mv d 1 e p
    beta_reduce at a1 a2 a3 ⊢
    rw [a1, a2, a3, pv]) d
  simpa only [mv_up_down] using this

/-- A rate along the negative (projected) driving force lowers the energy. -/
theorem energy_rate3 (h : Fin 3 → ℝ) (c : Fin 3 → Cell → ℝ) (mob : Cell → ℝ) (q A : QField3 n) (pc : ∀ d, Per3 N (c d))
    (pq : Per3 N q) (pA : Per3 N A) (pm : Per3 N mob) (pr : ∀ d, Per3 N (R.r d)) (pi : ∀ d, Per3 N (L.ri d)) (hm : ∀ p, mob p ≠ 0)
    (hA : ∀ p, dot (driving3 h c L (qdiff3 R.r q) p) (A p) = dot (A p) (A p)) :
    HasDerivAt (fun t : ℝ => gradEnergy3 N lo h c R.r (fun p => q p + t • ((-mob p) • A p)))
      (-cellSum3 N lo fun p => dot ((-mob p) • A p) ((-mob p) • A p) / mob p) 0 := by
  refine (energy_variation3 hT lo h c q (fun p => (-mob p) • A p) pc pq
    (fun d p => by beta_reduce; rw [pm, pA]) pr pi).congr_deriv ?_
  rw [← cellSum3_neg]
  refine cellSum3_congr N lo _ _ fun p => ?_
  have := hm p
  rw [dot_smul, hA, smul_dot, dot_smul]
  field_simp

end variation

/-! ## Coefficients -/

section coefs

variable {n : ℕ} {N : Fin 3 → ℕ}

theorem faceCoef3_defined (P : CoefParams) (hP : Accepted P) (a b s t : ℝ) (g : Fin 3 → QVec n) :
    ∃ c, faceCoef3 P a b s t g = some c := by
  obtain ⟨h1, h2, h3, h4⟩ := hP
  obtain ⟨x, hx⟩ : ∃ x, AMPE.Functions.averageFunc P.avg a b = some x := by
    simp only [List.mem_cons, List.not_mem_nil, or_false] at h1
    rcases h1 with e | e
    · simp [AMPE.Functions.averageFunc, e]
    · simp only [AMPE.Functions.averageFunc, e]
      split_ifs <;> simp_all
  obtain ⟨y, hy⟩ := interp_defined _ h2 x
  obtain ⟨z, hz⟩ := interp_defined _ h3 x
  obtain ⟨w, hw⟩ : ∃ w, evalGradNormi P.floorType (acc (fun m => g 0 m ^ 2) + acc (fun m => g 1 m ^ 2) + acc (fun m => g 2 m ^ 2))
      (P.gradientFloor ^ 2) (1 / P.gradientFloor) = some w := by
    simp only [List.mem_cons, List.not_mem_nil, or_false] at h4
    rcases h4 with e | e | e <;> simp only [evalGradNormi, e] <;> simp <;> split_ifs <;> simp
  exact ⟨_, by simp only [faceCoef3, hx, hy, hz, hw, Option.bind_eq_bind, Option.bind_some]; rfl⟩

theorem sideGrad3_per (h : Fin 3 → ℝ) (R : RotOps3 n) (D : Fin 3 → QField3 n) (pr : ∀ d, Per3 N (R.r d)) (pi : ∀ d, Per3 N (R.ri d))
    (pD : ∀ d, Per3 N (D d)) (s c : Fin 3) : Per3 N (sideGrad3 h R D s c) := by
  intro e p
  funext m
  have a1 := ((pD c).mv c 1).mv s (-1) e p
  have a2 := ((pi c).mv c 1).mv s (-1) e p
  have a3 := (pD c).mv s (-1) e p
  have a4 := (pD c).mv c 1 e p
  have a5 := (pi c).mv c 1 e p
  beta_reduce at a1 a2 a3 a4 a5
  simp only [sideGrad3, pD s e p, pr s e p, pD c e p, a1, a2, a3, a4, a5]

theorem coefs_exist (P : CoefParams) (hP : Accepted P) (G : Grid3) (R Rg : RotOps3 n) (q : QField3 n) :
    ∃ c, Coefs P G R Rg q c := by
  have e : ∀ d p, ∃ x, coef3 P G (sideGrad3 G.h Rg (qdiff3 R.r q)) d p = some x := fun d p => faceCoef3_defined P hP _ _ _ _ _
  choose c hc using e
  exact ⟨c, hc⟩

theorem coefs_per (P : CoefParams) (G : Grid3) (R Rg : RotOps3 n) (q : QField3 n) (c : Fin 3 → Cell → ℝ) (hc : Coefs P G R Rg q c)
    (pphi : Per3 N G.phi) (pt : Per3 N G.temp) (pq : Per3 N q) (pR : ∀ d, Per3 N (R.r d)) (pr : ∀ d, Per3 N (Rg.r d))
    (pi : ∀ d, Per3 N (Rg.ri d)) (d : Fin 3) : Per3 N (c d) := by
  intro e p
  have h1 := hc d (mv e (N e) p)
  have h2 := hc d p
  have hg := fun a => sideGrad3_per G.h Rg (qdiff3 R.r q) pr pi (qdiff3_per R q pq pR) d a e p
  have a1 := pphi.mv d (-1) e p
  have a2 := pt.mv d (-1) e p
  beta_reduce at a1 a2
  have : coef3 P G (sideGrad3 G.h Rg (qdiff3 R.r q)) d (mv e (N e) p) = coef3 P G (sideGrad3 G.h Rg (qdiff3 R.r q)) d p := by
    simp only [coef3, hg, a1, a2, pphi e p, pt e p]
  rw [this, h2] at h1
  exact (Option.some.inj h1).symm

end coefs

/-! ## The rate -/

theorem lambda3_eq {n : ℕ} (h : Fin 3 → ℝ) (lo hi : Fin 3 → QVec n) (q : QVec n) (hq : dot q q ≠ 0) :
    lambdaFlux3 h lo hi q = some (-(dot q (∑ d, (1 / h d) • (hi d - lo d)) / 2) / dot q q) := by
  have e : acc (fun m => q m ^ 2) = dot q q := by
    rw [acc_eq]; exact Finset.sum_congr rfl fun m _ => by ring
  have fold : ∀ (t : Fin n → ℝ) (L : List (Fin n)) (s : ℝ), L.foldl (fun s m => s - t m) s = s - (L.map t).sum := by
    intro t L
    induction L with
    | nil => simp
    | cons c L ih => intro s; rw [List.foldl_cons, ih]; simp only [List.map_cons, List.sum_cons]; ring
  simp only [lambdaFlux3, e, if_neg hq]
  rw [fold fun m => q m * ((hi 0 m - lo 0 m) * (0.5 / h 0) + (hi 1 m - lo 1 m) * (0.5 / h 1) + (hi 2 m - lo 2 m) * (0.5 / h 2)),
    ← List.ofFn_eq_map, List.sum_ofFn, zero_sub]
  congr 2
  rw [neg_inj]
  unfold dot
  rw [Finset.sum_div]
  refine Finset.sum_congr rfl fun m _ => ?_
  simp only [Fin.sum_univ_three, Pi.add_apply, Pi.smul_apply, Pi.sub_apply, smul_eq_mul]; ring

theorem cellRate3_eq {n : ℕ} (hn : n ≠ 1) (checks rotated : Bool) (hcr : (checks && rotated) = false) (mob : ℝ) (h : Fin 3 → ℝ)
    (lo hi : Fin 3 → QVec n) (q : QVec n) (hq : dot q q ≠ 0) :
    cellRate3 checks rotated mob h lo hi q = some ((-mob) • tangent q (∑ d, (1 / h d) • (hi d - lo d))) := by
  simp only [cellRate3, hcr, Bool.false_eq_true, if_false, if_neg hn, lambda3_eq h lo hi q hq, Option.map_some]
  congr 1
  funext m
  simp only [projOp3, div3, tangent, Fin.sum_univ_three, Pi.add_apply, Pi.smul_apply, Pi.sub_apply, smul_eq_mul]
  ring

theorem forGrad3_plain {n : ℕ} : (RotOps3.plain n).forGrad = RotOps3.plain n := by simp [RotOps3.forGrad]
theorem forGrad3_of_ne {n : ℕ} (hn : 1 < n) (R : RotOps3 n) : R.forGrad = R := by simp [RotOps3.forGrad, hn]
theorem forGrad3_one (R : RotOps3 1) : R.forGrad = RotOps3.plain 1 := by simp [RotOps3.forGrad]

section eval

variable {n : ℕ}

theorem pick {α : Type} (f : Fin 3 → α) (d : Fin 3) : (![f 0, f 1, f 2] : Fin 3 → α) d = f d := by fin_cases d <;> rfl

theorem sideGrad3_self (h : Fin 3 → ℝ) (R : RotOps3 n) (D : Fin 3 → QField3 n) (d : Fin 3) (p : Cell) :
    sideGrad3 h R D d d p = (1 / h d) • D d p := by funext m; simp [sideGrad3]

/-- What the evaluation adds up to without the correction. -/
theorem eval_main (hn : 1 < n) (checks symm useDiffs : Bool) (hcr : (checks && (symm && useDiffs)) = false)
    (hno : (symm && !useDiffs) = false) (P : CoefParams) (G : Grid3) (k : Fin 3 → Cell → ℤ) (q : QField3 n) (R : RotOps3 n)
    (hR : R = if symm then RotOps3.ofIndices n k else RotOps3.plain n) (c : Fin 3 → Cell → ℝ) (hc : Coefs P G R R q c) (p : Cell)
    (hq : dot (q p) (q p) ≠ 0) :
    evaluateQuatRHS3 checks symm useDiffs false P G k q p
      = some ((-G.mob p) • tangent (q p) (driving3 G.h c (RotOps3.plain n) (qdiff3 R.r q) p)) := by
  have hc' : ∀ d p, coef3 P G (sideGrad3 G.h R (qdiff3 R.r q)) d p = some (c d p) := hc
  simp only [evaluateQuatRHS3, ← hR, hno, Bool.false_eq_true, if_false, forGrad3_of_ne hn, hc', Option.bind_eq_bind, Option.bind_some]
  rw [cellRate3_eq (by omega) _ _ hcr _ _ _ _ _ hq]
  simp only [Option.bind_some, Option.some.injEq]
  congr 2
  unfold driving3
  refine Finset.sum_congr rfl fun d _ => ?_
  rw [pick (fun d => c d p) d, pick (fun d => c d (mv d 1 p)) d, sideGrad3_self, sideGrad3_self]
  funext m
  simp only [flux, RotOps3.plain, id, Pi.smul_apply, Pi.sub_apply, smul_eq_mul]
  ring

/-- The same with the correction. -/
theorem eval_default (hn : 1 < n) (P : CoefParams) (G : Grid3) (k : Fin 3 → Cell → ℤ) (q : QField3 n) (c : Fin 3 → Cell → ℝ)
    (hc : Coefs P G (RotOps3.ofIndices n k) (RotOps3.ofIndices n k) q c) (p : Cell) (hq : dot (q p) (q p) ≠ 0) :
    evaluateQuatRHS3 false true false false P G k q p
      = some ((-G.mob p) • tangent (q p) (driving3 G.h c (RotOps3.plain n) (qdiff3 (RotOps3.ofIndices n k).r q) p)
        + G.mob p • tangent (q p) (∑ d, (1 / G.h d ^ 2) • (c d (mv d 1 p) • (qdiff3 (RotOps3.plain n).r q d (mv d 1 p)
            - (RotOps3.ofIndices n k).ri d (mv d 1 p) (qdiff3 (RotOps3.ofIndices n k).r q d (mv d 1 p)))
          - c d p • (qdiff3 (RotOps3.plain n).r q d p - qdiff3 (RotOps3.ofIndices n k).r q d p)))) := by
  have hc' : ∀ d p, coef3 P G (sideGrad3 G.h (RotOps3.ofIndices n k) (qdiff3 (RotOps3.ofIndices n k).r q)) d p = some (c d p) := hc
  simp only [evaluateQuatRHS3, Bool.false_eq_true, if_false, if_true, forGrad3_of_ne hn, hc', Option.bind_eq_bind, Option.bind_some]
  rw [cellRate3_eq (by omega) _ _ rfl _ _ _ _ _ hq]
  simp only [Option.bind_some, Bool.not_false, Bool.and_self, if_true, Bool.false_and, Bool.false_eq_true, if_false]
  rw [symmAdd_eq hn _ _ _ hq]
  simp only [Option.bind_some, Option.some.injEq]
  congr 3
  · unfold driving3
    refine Finset.sum_congr rfl fun d _ => ?_
    rw [pick (fun d => c d p) d, pick (fun d => c d (mv d 1 p)) d, sideGrad3_self, sideGrad3_self]
    funext m
    simp only [flux, RotOps3.plain, id, Pi.smul_apply, Pi.sub_apply, smul_eq_mul]
    ring
  · funext m
    simp only [symmTmp3, Fin.sum_univ_three, Pi.add_apply, Pi.smul_apply, Pi.sub_apply, smul_eq_mul, Matrix.cons_val_zero,
      Matrix.cons_val_one, Matrix.cons_val]
    ring

/-- One component. -/
theorem eval_angle3 (checks symm useDiffs : Bool) (hcr : (checks && (symm && useDiffs)) = false)
    (hno : (symm && !useDiffs) = false) (P : CoefParams) (G : Grid3) (k : Fin 3 → Cell → ℤ) (q : QField3 1) (R : RotOps3 1)
    (hR : R = if symm then RotOps3.ofIndices 1 k else RotOps3.plain 1) (c : Fin 3 → Cell → ℝ)
    (hc : Coefs P G R (RotOps3.plain 1) q c) (p : Cell) :
    evaluateQuatRHS3 checks symm useDiffs false P G k q p
      = some ((-G.mob p) • driving3 G.h c (RotOps3.plain 1) (qdiff3 R.r q) p) := by
  have hc' : ∀ d p, coef3 P G (sideGrad3 G.h (RotOps3.plain 1) (qdiff3 R.r q)) d p = some (c d p) := hc
  simp only [evaluateQuatRHS3, ← hR, hno, Bool.false_eq_true, if_false, forGrad3_one, hc', Option.bind_eq_bind, Option.bind_some,
    cellRate3, hcr, if_true, Option.some.injEq]
  funext m
  simp only [plainOp3, div3, driving3, flux, sideGrad3_self, RotOps3.plain, id, Fin.sum_univ_three, Pi.add_apply, Pi.smul_apply,
    Pi.sub_apply, smul_eq_mul, Matrix.cons_val_zero, Matrix.cons_val_one, Matrix.cons_val]
  ring

end eval

theorem plain3_per {n : ℕ} {N : Fin 3 → ℕ} (d : Fin 3) : Per3 N ((RotOps3.plain n).r d) ∧ Per3 N ((RotOps3.plain n).ri d) :=
  ⟨fun _ _ => rfl, fun _ _ => rfl⟩

theorem driving3_per {n : ℕ} {N : Fin 3 → ℕ} (h : Fin 3 → ℝ) (c : Fin 3 → Cell → ℝ) (L : RotOps3 n) (s : Fin 3 → QField3 n)
    (pc : ∀ d, Per3 N (c d)) (pi : ∀ d, Per3 N (L.ri d)) (ps : ∀ d, Per3 N (s d)) : Per3 N (driving3 h c L s) := by
  intro e p
  unfold driving3
  refine Finset.sum_congr rfl fun d _ => ?_
  have a1 := (pc d).mv d 1 e p
  have a2 := (pi d).mv d 1 e p
  have a3 := (ps d).mv d 1 e p
  beta_reduce at a1 a2 a3
  rw [a1, a2, a3, pc d e p, ps d e p]

theorem turn3_plain (n : ℕ) : Turn3 (RotOps3.plain n) (RotOps3.plain n) :=
  ⟨fun _ _ _ _ => rfl, fun _ _ _ _ => rfl, fun _ _ _ _ => rfl⟩

/-- **C118** (more than one component, no symmetry): on a periodic box the orientation rate lowers the gradient energy. -/
theorem c118_dissipates_plain {n : ℕ} (hn : 1 < n) (N : Fin 3 → ℕ) (lo : Cell) (checks useDiffs : Bool) (P : CoefParams)
    (hP : Accepted P) (G : Grid3) (k : Fin 3 → Cell → ℤ) (q : QField3 n) (hq : ∀ p, q p ≠ 0) (hm : ∀ p, G.mob p ≠ 0)
    (pq : Per3 N q) (pphi : Per3 N G.phi) (pt : Per3 N G.temp) (pm : Per3 N G.mob) :
    Dissipates3 N lo checks false useDiffs P G k q (RotOps3.plain n) (RotOps3.plain n) := by
  obtain ⟨c, hc⟩ := coefs_exist P hP G (RotOps3.plain n) (RotOps3.plain n) q
  have pr := fun d => (plain3_per (n := n) (N := N) d).1
  have pi := fun d => (plain3_per (n := n) (N := N) d).2
  have pc := coefs_per P G _ _ q c hc pphi pt pq pr pr pi
  have pD := driving3_per G.h c (RotOps3.plain n) _ pc pi (qdiff3_per _ q pq pr)
  have hne : ∀ p, dot (q p) (q p) ≠ 0 := fun p => (dot_self_pos _ (hq p)).ne'
  refine ⟨c, fun p => (-G.mob p) • tangent (q p) (driving3 G.h c (RotOps3.plain n) (qdiff3 (RotOps3.plain n).r q) p), hc,
    fun p => eval_main hn checks false useDiffs (by simp) (by simp) P G k q _ rfl c hc p (hne p), ?_⟩
  exact energy_rate3 (turn3_plain n) lo G.h c G.mob q
    (fun p => tangent (q p) (driving3 G.h c (RotOps3.plain n) (qdiff3 (RotOps3.plain n).r q) p)) pc pq
    (fun d p => by beta_reduce; rw [pq, pD]) pm pr pi hm (fun p => tangent_dot _ _ (hne p))

/-- **C118** (one angle; with symmetry, fluxes from differences and no assertions). -/
theorem c118_dissipates_angle (N : Fin 3 → ℕ) (lo : Cell) (checks symm useDiffs : Bool) (hsu : symm = true → useDiffs = true)
    (hch : symm = true → checks = false) (P : CoefParams) (hP : Accepted P) (G : Grid3) (k : Fin 3 → Cell → ℤ)
    (hk : ∀ d p, 1 ≤ k d p ∧ k d p ≤ 9) (q : QField3 1) (hm : ∀ p, G.mob p ≠ 0) (pq : Per3 N q) (pphi : Per3 N G.phi)
    (pt : Per3 N G.temp) (pm : Per3 N G.mob) (pk : ∀ d, Per3 N (k d)) :
    Dissipates3 N lo checks symm useDiffs P G k q (if symm then RotOps3.ofIndices 1 k else RotOps3.plain 1) (RotOps3.plain 1) := by
  set R := if symm then RotOps3.ofIndices 1 k else RotOps3.plain 1 with hR
  obtain ⟨c, hc⟩ := coefs_exist P hP G R (RotOps3.plain 1) q
  have pr := fun d => (plain3_per (n := 1) (N := N) d).1
  have pi := fun d => (plain3_per (n := 1) (N := N) d).2
  have pR : ∀ d, Per3 N (R.r d) := by
    intro d e p
    cases symm
    · rfl
    · simp only [hR, if_true, RotOps3.ofIndices, pk d e p]
  have hT : Turn3 R (RotOps3.plain 1) := by
    refine ⟨?_, fun _ _ _ _ => rfl, fun _ _ _ _ => rfl⟩
    intro d p v w
    cases symm
    · rfl
    · obtain ⟨c, h⟩ := rotBy1 _ (hk d p).1 (hk d p).2
      simp only [hR, if_true, RotOps3.ofIndices, RotOps3.plain, id, h]
      exact add_right_comm v w c
  have pc := coefs_per P G _ _ q c hc pphi pt pq pR pr pi
  have pD := driving3_per G.h c (RotOps3.plain 1) _ pc pi (qdiff3_per R q pq pR)
  refine ⟨c, fun p => (-G.mob p) • driving3 G.h c (RotOps3.plain 1) (qdiff3 R.r q) p, hc, fun p =>
    eval_angle3 checks symm useDiffs ?_ ?_ P G k q R hR c hc p, energy_rate3 hT lo G.h c G.mob q _ pc pq pD pm pR pi hm fun p => rfl⟩
  · cases symm
    · simp
    · rw [hch rfl]; rfl
  · cases symm
    · rfl
    · rw [hsu rfl]; rfl

/-! ## Sign -/

/-- **C118**: with phases in [0,1], a temperature, a misorientation parameter and a floor that are not negative, every face coefficient
is at most zero. -/
theorem c118_coef_sign {n : ℕ} (P : CoefParams) (hP : Accepted P) (hm : 0 ≤ P.misorientation) (hf : 0 < P.gradientFloor)
    (a b s t : ℝ) (ha : 0 ≤ a) (ha1 : a ≤ 1) (hb : 0 ≤ b) (hb1 : b ≤ 1) (hs : 0 ≤ s) (ht : 0 ≤ t) (g : Fin 3 → QVec n) (c : ℝ)
    (h : faceCoef3 P a b s t g = some c) : c ≤ 0 := by
  obtain ⟨h1, h2, h3, h4⟩ := hP
  simp only [faceCoef3, Option.bind_eq_bind, Option.bind_eq_some_iff] at h
  obtain ⟨x, hx, y, hy, z, hz, w, hw, e⟩ := h
  obtain ⟨x0, x1⟩ := average_range _ h1 _ _ _ ha ha1 hb hb1 hx
  have y0 := interp_nonneg _ h2 _ _ x0 x1 hy
  have z0 := interp_nonneg _ h3 _ _ x0 x1 hz
  have g0 : 0 ≤ acc (fun m => g 0 m ^ 2) + acc (fun m => g 1 m ^ 2) + acc (fun m => g 2 m ^ 2) := by
    rw [acc_eq, acc_eq, acc_eq]
    exact add_nonneg (add_nonneg (Finset.sum_nonneg fun m _ => sq_nonneg _) (Finset.sum_nonneg fun m _ => sq_nonneg _))
      (Finset.sum_nonneg fun m _ => sq_nonneg _)
  generalize acc (fun m => g 0 m ^ 2) + acc (fun m => g 1 m ^ 2) + acc (fun m => g 2 m ^ 2) = S at g0 hw
  have w0 : 0 ≤ w := by
    simp only [List.mem_cons, List.not_mem_nil, or_false] at h4
    rcases h4 with e | e | e <;> rw [e] at hw
    · obtain ⟨r, hr, p, -⟩ := c49_max S _ hf
      rw [hr] at hw; simp at hw; rw [← hw]; exact p.le
    · obtain ⟨r, hr, p, -⟩ := c49_tanh _ _ hf g0
      rw [hr] at hw; simp at hw; rw [← hw]; exact p.le
    · obtain ⟨r, hr, p, -⟩ := c49_sqrt _ _ hf g0
      rw [hr] at hw; simp at hw; rw [← hw]; exact p.le
  simp only [Option.some.injEq] at e
  rw [← e]
  have i1 : 0 ≤ w * (P.misorientation * (0.5 * (s + t)) * y) := by
    have : (0:ℝ) ≤ 0.5 * (s + t) := by norm_num; linarith
    positivity
  have i2 : 0 ≤ P.epsQ * P.epsQ * z := mul_nonneg (mul_self_nonneg _) z0
  linarith

/-- **C118**: the energy is not negative when no coefficient is positive. -/
theorem c118_energy_nonneg {n : ℕ} (N : Fin 3 → ℕ) (lo : Cell) (h : Fin 3 → ℝ) (c : Fin 3 → Cell → ℝ) (hc : ∀ d p, c d p ≤ 0)
    (S : Fin 3 → Cell → QVec n → QVec n) (q : QField3 n) : 0 ≤ gradEnergy3 N lo h c S q := by
  unfold gradEnergy3 cellSum3
  refine Finset.sum_nonneg fun k _ => Finset.sum_nonneg fun b _ => Finset.sum_nonneg fun a _ => Finset.sum_nonneg fun d _ => ?_
  generalize ((lo.1 + (a : ℤ), lo.2.1 + (b : ℤ), lo.2.2 + (k : ℤ)) : Cell) = p
  have d0 : 0 ≤ dsq (q p) (S d p (q (mv d (-1) p))) := Finset.sum_nonneg fun m _ => sq_nonneg _
  have e1 : 0 ≤ -c d p := by linarith [hc d p]
  positivity

/-- **C118**: the speed `-Σ |rate|² / mobility` is not positive for positive mobilities, and zero only when every cell of the period
is at rest. -/
theorem c118_speed {n : ℕ} (N : Fin 3 → ℕ) (lo : Cell) (mob : Cell → ℝ) (hm : ∀ p, 0 < mob p) (rate : QField3 n) :
    -cellSum3 N lo (fun p => dot (rate p) (rate p) / mob p) ≤ 0 ∧
    (-cellSum3 N lo (fun p => dot (rate p) (rate p) / mob p) = 0 →
      ∀ i j k : ℤ, lo.1 ≤ i → i < lo.1 + N 0 → lo.2.1 ≤ j → j < lo.2.1 + N 1 → lo.2.2 ≤ k → k < lo.2.2 + N 2 →
        rate (i, j, k) = 0) := by
  have d : ∀ v : QVec n, 0 ≤ dot v v := fun v => Finset.sum_nonneg fun m _ => mul_self_nonneg _
  have nn : ∀ p, 0 ≤ dot (rate p) (rate p) / mob p := fun p => div_nonneg (d _) (hm p).le
  constructor
  · rw [neg_nonpos]
    exact Finset.sum_nonneg fun k _ => Finset.sum_nonneg fun b _ => Finset.sum_nonneg fun a _ => nn _
  · intro h i j k h1 h2 h3 h4 h5 h6
    rw [neg_eq_zero, cellSum3] at h
    have h := (Finset.sum_eq_zero_iff_of_nonneg fun (k : ℕ) _ => Finset.sum_nonneg fun (b : ℕ) _ => Finset.sum_nonneg
      fun (a : ℕ) _ => nn (lo.1 + (a : ℤ), lo.2.1 + (b : ℤ), lo.2.2 + (k : ℤ))).mp h
    have hk := h (k - lo.2.2).toNat (Finset.mem_range.mpr (by omega))
    have hk := (Finset.sum_eq_zero_iff_of_nonneg fun (b : ℕ) _ => Finset.sum_nonneg
      fun (a : ℕ) _ => nn (lo.1 + (a : ℤ), lo.2.1 + (b : ℤ), lo.2.2 + ((k - lo.2.2).toNat : ℤ))).mp hk
    have hb := hk (j - lo.2.1).toNat (Finset.mem_range.mpr (by omega))
    have hb := (Finset.sum_eq_zero_iff_of_nonneg
      fun (a : ℕ) _ => nn (lo.1 + (a : ℤ), lo.2.1 + ((j - lo.2.1).toNat : ℤ), lo.2.2 + ((k - lo.2.2).toNat : ℤ))).mp hb
    have ha := hb (i - lo.1).toNat (Finset.mem_range.mpr (by omega))
    rw [show lo.1 + ((i - lo.1).toNat : ℤ) = i by omega, show lo.2.1 + ((j - lo.2.1).toNat : ℤ) = j by omega,
      show lo.2.2 + ((k - lo.2.2).toNat : ℤ) = k by omega] at ha
    by_contra hne
    have := dot_self_pos _ hne
    have := div_pos this (hm (i, j, k))
    linarith

/-! ## What stops -/

/-- **C118**: the isotropic stencil stops the program in three dimensions, for every input. -/
theorem c118_isotropic_stops {n : ℕ} (checks symm useDiffs : Bool) (P : CoefParams) (G : Grid3) (k : Fin 3 → Cell → ℤ) (q : QField3 n)
    (p : Cell) : evaluateQuatRHS3 checks symm useDiffs true P G k q p = none := rfl

/-- **C118 fails**: in a build with assertions, crystal symmetry aborts the first evaluation of the orientation rate in three dimensions,
whichever way the fluxes are built; only one angle with the default setting gets through. -/
theorem c118_violation_checks {n : ℕ} (useDiffs : Bool) (hn : n ≠ 1 ∨ useDiffs = true) (P : CoefParams) (G : Grid3)
    (k : Fin 3 → Cell → ℤ) (q : QField3 n) (p : Cell) : evaluateQuatRHS3 true true useDiffs false P G k q p = none := by
  unfold evaluateQuatRHS3
  simp only [Bool.false_eq_true, if_false, if_true, Option.bind_eq_bind, Option.bind_eq_none_iff]
  intro a0 _ b0 _ a1 _ b1 _ a2 _ b2 _ rate hr
  cases useDiffs
  · have h1 : n ≠ 1 := by simpa using hn
    simp [h1]
  · simp [cellRate3] at hr

/-- **C118 fails**: the residual of the preconditioner stops whenever it is given a rotation index, and otherwise is
`rhs - q - γ √M ∇·flux`. -/
theorem c118_violation_residual {n : ℕ} (rotated : Bool) (gamma sqrtM : ℝ) (h : Fin 3 → ℝ) (lo hi : Fin 3 → QVec n) (q rhs : QVec n) :
    residual3 rotated gamma sqrtM h lo hi q rhs =
      if rotated then none else some (rhs - q - (gamma * sqrtM) • ∑ d, (1 / h d) • (hi d - lo d)) := by
  cases rotated
  · simp only [residual3, Bool.false_eq_true, if_false, Option.some.injEq]
    funext m
    simp only [div3, Fin.sum_univ_three, Pi.add_apply, Pi.sub_apply, Pi.smul_apply, smul_eq_mul]
    ring
  · rfl

/-! ## Symmetry without assertions -/

theorem tangent_orth {n : ℕ} (q v : QVec n) (hq : dot q q ≠ 0) : dot q (tangent q v) = 0 := by
  rw [tangent, dot_sub, dot_smul]; field_simp; ring

/-- **C118**: whatever the setting, a rate returned for more than one component is orthogonal to the orientation it belongs to. -/
theorem c118_tangent {n : ℕ} (hn : 1 < n) (checks symm useDiffs iso : Bool) (P : CoefParams) (hP : Accepted P) (G : Grid3)
    (k : Fin 3 → Cell → ℤ) (q : QField3 n) (p : Cell) (hq : q p ≠ 0) (v : QVec n)
    (h : evaluateQuatRHS3 checks symm useDiffs iso P G k q p = some v) : dot (q p) v = 0 := by
  have hne : dot (q p) (q p) ≠ 0 := (dot_self_pos _ hq).ne'
  cases iso
  swap
  · rw [c118_isotropic_stops] at h; cases h
  have main : ∀ symm useDiffs checks : Bool, (symm && !useDiffs) = false → (checks && (symm && useDiffs)) = false →
      ∀ v, evaluateQuatRHS3 checks symm useDiffs false P G k q p = some v → dot (q p) v = 0 := by
    intro symm useDiffs checks h1 h2 v h
    obtain ⟨c, hc⟩ := coefs_exist P hP G (if symm then RotOps3.ofIndices n k else RotOps3.plain n)
      (if symm then RotOps3.ofIndices n k else RotOps3.plain n) q
    rw [eval_main hn checks symm useDiffs h2 h1 P G k q _ rfl c hc p hne, Option.some.injEq] at h
    rw [← h, dot_smul, tangent_orth _ _ hne, mul_zero]
  cases symm
  · exact main false useDiffs checks rfl (by simp) v h
  cases checks
  · cases useDiffs
    · obtain ⟨c, hc⟩ := coefs_exist P hP G (RotOps3.ofIndices n k) (RotOps3.ofIndices n k) q
      rw [eval_default hn P G k q c hc p hne, Option.some.injEq] at h
      rw [← h, dot_add, dot_smul, dot_smul, tangent_orth _ _ hne, tangent_orth _ _ hne]; ring
    · exact main true true false rfl rfl v h
  · rw [c118_violation_checks useDiffs (Or.inl (by omega)) P G k q p] at h; cases h

/-- Specification: the rate of steepest descent of the gradient energy on unit orientations, the upper fluxes turned back. -/
noncomputable def intended {n : ℕ} (G : Grid3) (c : Fin 3 → Cell → ℝ) (k : Fin 3 → Cell → ℤ) (q : QField3 n) (p : Cell) : QVec n :=
  (-G.mob p) • tangent (q p) (driving3 G.h c (RotOps3.ofIndices n k) (qdiff3 (RotOps3.ofIndices n k).r q) p)

theorem tangent_congr {n : ℕ} (mob : ℝ) (q a b e : QVec n) (h : a = b + e) :
    (-mob) • tangent q a = (-mob) • tangent q b + (-mob) • tangent q e := by
  rw [h, tangent_add, smul_add]

/-- **C118 fails** (symmetry, fluxes from differences, no assertions): for every number of components above one, every orientation field
and every rotation index array, the rate is the intended one plus the projected sum of what turning back the upper
fluxes would have changed. -/
theorem c118_violation_unrotated {n : ℕ} (hn : 1 < n) (P : CoefParams) (hP : Accepted P) (G : Grid3) (k : Fin 3 → Cell → ℤ) (q : QField3 n)
    (hq : ∀ p, q p ≠ 0) : ∃ c, Coefs P G (RotOps3.ofIndices n k) (RotOps3.ofIndices n k) q c ∧ ∀ p,
    evaluateQuatRHS3 false true true false P G k q p = some (intended G c k q p + (-G.mob p) • tangent (q p)
      (∑ d, (c d (mv d 1 p) / G.h d ^ 2) • (qdiff3 (RotOps3.ofIndices n k).r q d (mv d 1 p)
        - rotBy (-1 * k d (mv d 1 p)) (qdiff3 (RotOps3.ofIndices n k).r q d (mv d 1 p))))) := by
  obtain ⟨c, hc⟩ := coefs_exist P hP G (RotOps3.ofIndices n k) (RotOps3.ofIndices n k) q
  refine ⟨c, hc, fun p => ?_⟩
  rw [eval_main hn false true true rfl rfl P G k q (RotOps3.ofIndices n k) rfl c hc p (dot_self_pos _ (hq p)).ne', Option.some.injEq, intended]
  refine tangent_congr _ _ _ _ _ ?_
  unfold driving3
  rw [← Finset.sum_add_distrib]
  refine Finset.sum_congr rfl fun d _ => ?_
  funext m
  simp only [RotOps3.plain, RotOps3.ofIndices, id, Pi.add_apply, Pi.sub_apply, Pi.smul_apply, smul_eq_mul]
  ring

/-- **C118 fails** (symmetry, default setting, no assertions): the rate is the intended one plus the projected divergence of the jump
between the stored and the turned orientations of the neighbours. -/
theorem c118_violation_default {n : ℕ} (hn : 1 < n) (P : CoefParams) (hP : Accepted P) (G : Grid3) (k : Fin 3 → Cell → ℤ) (q : QField3 n)
    (hq : ∀ p, q p ≠ 0) : ∃ c, Coefs P G (RotOps3.ofIndices n k) (RotOps3.ofIndices n k) q c ∧ ∀ p,
    evaluateQuatRHS3 false true false false P G k q p = some (intended G c k q p + G.mob p • tangent (q p)
      (∑ d, (1 / G.h d ^ 2) • (c d (mv d 1 p) • (rotBy (k d (mv d 1 p)) (q p) - q p)
        - c d p • (rotBy (k d p) (q (mv d (-1) p)) - q (mv d (-1) p))))) := by
  obtain ⟨c, hc⟩ := coefs_exist P hP G (RotOps3.ofIndices n k) (RotOps3.ofIndices n k) q
  refine ⟨c, hc, fun p => ?_⟩
  rw [eval_default hn P G k q c hc p (dot_self_pos _ (hq p)).ne', Option.some.injEq, intended]
  simp only [← tangent_smul]
  rw [← tangent_add, ← tangent_add]
  congr 1
  unfold driving3
  simp only [Finset.smul_sum]
  rw [← Finset.sum_add_distrib, ← Finset.sum_add_distrib]
  refine Finset.sum_congr rfl fun d _ => ?_
  funext m
  simp only [RotOps3.plain, RotOps3.ofIndices, qdiff3, mv_down_up, id, Pi.add_apply, Pi.sub_apply, Pi.smul_apply, smul_eq_mul]
  ring


theorem turn3_table {n : ℕ} {N : ℤ} {Sym : (QVec n → QVec n) → Prop} (T : Table n N Sym) (k : Fin 3 → Cell → ℤ)
    (hk : ∀ d p, 1 ≤ k d p ∧ k d p ≤ N) : Turn3 (RotOps3.ofIndices n k) (RotOps3.ofIndices n k) := by
  have l : ∀ k, 1 ≤ k ∧ k ≤ N → LinIso (rotBy k : QVec n → QVec n) ∧
      ∀ v w : QVec n, dot (rotBy k v) w = dot v (rotBy (-1 * k) w) := by
    intro k hk
    have h1 := T.iso _ (T.sym k hk.1 hk.2)
    obtain ⟨b1, -, b3⟩ := T.back k hk.1 hk.2
    refine ⟨h1, fun v w => ?_⟩
    have := h1.dot v (rotBy (-1 * k) w)
    rwa [b3] at this
  exact ⟨fun d p v w => (l _ (hk d p)).1.add v w, fun d p t v => (l _ (hk d p)).1.smul t v, fun d p v w => (l _ (hk d p)).2 v w⟩

theorem intended_descends {n : ℕ} {M : ℤ} {Sym : (QVec n → QVec n) → Prop} (T : Table n M Sym) (N : Fin 3 → ℕ) (lo : Cell)
    (P : CoefParams) (G : Grid3) (k : Fin 3 → Cell → ℤ) (hk : ∀ d p, 1 ≤ k d p ∧ k d p ≤ M) (q : QField3 n) (hq : ∀ p, q p ≠ 0)
    (hm : ∀ p, G.mob p ≠ 0) (c : Fin 3 → Cell → ℝ) (hc : Coefs P G (RotOps3.ofIndices n k) (RotOps3.ofIndices n k) q c)
    (pq : Per3 N q) (pphi : Per3 N G.phi) (pt : Per3 N G.temp) (pm : Per3 N G.mob) (pk : ∀ d, Per3 N (k d)) :
    HasDerivAt (fun t : ℝ => gradEnergy3 N lo G.h c (RotOps3.ofIndices n k).r (fun p => q p + t • intended G c k q p))
      (-cellSum3 N lo fun p => dot (intended G c k q p) (intended G c k q p) / G.mob p) 0 := by
  have pr : ∀ d, Per3 N ((RotOps3.ofIndices n k).r d) := fun d e p => by simp only [RotOps3.ofIndices, pk d e p]
  have pi : ∀ d, Per3 N ((RotOps3.ofIndices n k).ri d) := fun d e p => by simp only [RotOps3.ofIndices, pk d e p]
  have pc := coefs_per P G _ _ q c hc pphi pt pq pr pr pi
  have pD := driving3_per G.h c (RotOps3.ofIndices n k) _ pc pi (qdiff3_per _ q pq pr)
  exact energy_rate3 (turn3_table T k hk) lo G.h c G.mob q
    (fun p => tangent (q p) (driving3 G.h c (RotOps3.ofIndices n k) (qdiff3 (RotOps3.ofIndices n k).r q) p)) pc pq
    (fun d p => by beta_reduce; rw [pq, pD]) pm pr pi hm (fun p => tangent_dot _ _ (dot_self_pos _ (hq p)).ne')

/-- **C118**: the rate called intended lowers the gradient energy of quaternions with symmetry on a periodic box. -/
theorem c118_intended4 (N : Fin 3 → ℕ) (lo : Cell) (P : CoefParams) (G : Grid3) (k : Fin 3 → Cell → ℤ)
    (hk : ∀ d p, 1 ≤ k d p ∧ k d p ≤ 48) (q : QField3 4) (hq : ∀ p, q p ≠ 0) (hm : ∀ p, G.mob p ≠ 0) (c : Fin 3 → Cell → ℝ)
    (hc : Coefs P G (RotOps3.ofIndices 4 k) (RotOps3.ofIndices 4 k) q c) (pq : Per3 N q) (pphi : Per3 N G.phi) (pt : Per3 N G.temp)
    (pm : Per3 N G.mob) (pk : ∀ d, Per3 N (k d)) :
    HasDerivAt (fun t : ℝ => gradEnergy3 N lo G.h c (RotOps3.ofIndices 4 k).r (fun p => q p + t • intended G c k q p))
      (-cellSum3 N lo fun p => dot (intended G c k q p) (intended G c k q p) / G.mob p) 0 :=
  intended_descends table4 N lo P G k hk q hq hm c hc pq pphi pt pm pk

/-- **C118**: the same for two components. -/
theorem c118_intended2 (N : Fin 3 → ℕ) (lo : Cell) (P : CoefParams) (G : Grid3) (k : Fin 3 → Cell → ℤ)
    (hk : ∀ d p, 1 ≤ k d p ∧ k d p ≤ 4) (q : QField3 2) (hq : ∀ p, q p ≠ 0) (hm : ∀ p, G.mob p ≠ 0) (c : Fin 3 → Cell → ℝ)
    (hc : Coefs P G (RotOps3.ofIndices 2 k) (RotOps3.ofIndices 2 k) q c) (pq : Per3 N q) (pphi : Per3 N G.phi) (pt : Per3 N G.temp)
    (pm : Per3 N G.mob) (pk : ∀ d, Per3 N (k d)) :
    HasDerivAt (fun t : ℝ => gradEnergy3 N lo G.h c (RotOps3.ofIndices 2 k).r (fun p => q p + t • intended G c k q p))
      (-cellSum3 N lo fun p => dot (intended G c k q p) (intended G c k q p) / G.mob p) 0 :=
  intended_descends table2 N lo P G k hk q hq hm c hc pq pphi pt pm pk

/-! ## Neighbours stored alike -/

theorem unlabelled {n : ℕ} (hn : 1 < n) (P : CoefParams) (G : Grid3) (k k' : Fin 3 → Cell → ℤ) (q : QField3 n)
    (hk : RotOps3.ofIndices n k = RotOps3.plain n) (useDiffs : Bool) (p : Cell) (hP : Accepted P) (hq : q p ≠ 0) :
    evaluateQuatRHS3 false true true false P G k q p = evaluateQuatRHS3 false false useDiffs false P G k' q p := by
  obtain ⟨c, hc⟩ := coefs_exist P hP G (RotOps3.plain n) (RotOps3.plain n) q
  rw [eval_main hn false true true rfl rfl P G k q (RotOps3.plain n) (by simpa using hk.symm) c hc p (dot_self_pos _ hq).ne',
    eval_main hn false false useDiffs (by simp) rfl P G k' q (RotOps3.plain n) rfl c hc p (dot_self_pos _ hq).ne']

/-- The nearest copy of an orientation less than 45 degrees away is the stored one. -/
theorem close_id (q1 q2 : QVec 4) (u1 : dot q1 q1 = 1) (u2 : dot q2 q2 = 1) (h : Real.cos (Real.pi / 8) < dot q1 q2)
    (f : QVec 4 → QVec 4) (hf : Sym4 f) (hmin : dsq q1 (f q2) ≤ dsq q1 q2) : f = id := by
  have uf : dot (f q2) (f q2) = 1 := by rw [(table4.iso f hf).dot, u2]
  rw [dsq_dot _ _ u1 uf, dsq_dot _ _ u1 u2] at hmin
  have hc : 0 ≤ Real.cos (Real.pi / 8) :=
    Real.cos_nonneg_of_neg_pi_div_two_le_of_le (by linarith [Real.pi_pos]) (by linarith [Real.pi_pos])
  obtain ⟨k, k1, k2, hk⟩ := (sym4_iff f).mp hf
  obtain ⟨l, l1, l2, hl⟩ := (sym4_iff id).mp (table4.id_mem (by norm_num))
  rcases qr4_separated k1 k2 l1 l2 with e | e
  · funext w; rw [hk, hl, e]
  · exfalso
    have h2 := Real.cos_two_mul (Real.pi / 8)
    rw [show 2 * (Real.pi / 8) = Real.pi / 4 by ring, Real.cos_pi_div_four] at h2
    have hle : dot (f q2) (id q2) ≤ 2 * Real.cos (Real.pi / 8) ^ 2 - 1 := by
      rw [← h2, hk, hl, dot4, toQ4_ofQ4, toQ4_ofQ4]
      have : inner4 (quatmult4 (QuatFlow.toQ4 q2) (qr4 k)) (quatmult4 (QuatFlow.toQ4 q2) (qr4 l))
          = quatmagsq4 (QuatFlow.toQ4 q2) * inner4 (qr4 k) (qr4 l) := by
        simp only [inner4, quatmult4, quatmagsq4]; ring
      rw [this, ← dot4_magsq, u2, one_mul]
      exact e
    have cs := Finset.sum_mul_sq_le_sq_mul_sq Finset.univ q1 (f q2 + q2)
    have e1 : ∑ m, q1 m * (f q2 + q2) m = dot q1 (f q2) + dot q1 q2 := dot_add q1 (f q2) q2
    have e2 : ∑ m, q1 m ^ 2 = 1 := by rw [← u1]; exact Finset.sum_congr rfl fun m _ => by ring
    have e3 : ∑ m, (f q2 + q2) m ^ 2 = 2 + 2 * dot (f q2) q2 := by
      have : ∑ m, (f q2 + q2) m ^ 2 = dot (f q2) (f q2) + dot q2 q2 + 2 * dot (f q2) q2 := by
        simp only [dot, Finset.mul_sum, ← Finset.sum_add_distrib]
        exact Finset.sum_congr rfl fun m _ => by simp only [Pi.add_apply]; ring
      rw [this, uf, u2]; ring
    rw [e1, e2, e3] at cs
    simp only [id] at hle
    nlinarith

theorem close_plain (q : QField3 4) (hq : ∀ p, dot (q p) (q p) = 1)
    (h : ∀ d p, Real.cos (Real.pi / 8) < dot (q p) (q (mv d (-1) p))) (old : Fin 3 → Cell → ℤ) :
    RotOps3.ofIndices 4 (symmRot3 q old) = RotOps3.plain 4 := by
  have hx : ∀ d p, (rotBy (symmRot3 q old d p) : QVec 4 → QVec 4) = id ∧
      (rotBy (-1 * symmRot3 q old d p) : QVec 4 → QVec 4) = id := by
    intro d p
    obtain ⟨k, r, e, k1, k2, hm⟩ := table4.search (q p) (q (mv d (-1) p)) (old d p) (hq _) (hq _)
    have hk : symmRot3 q old d p = k := by simp only [symmRot3, e, Option.map_some, Option.getD_some]
    rw [hk]
    have e1 := close_id _ _ (hq p) (hq _) (h d p) _ (table4.sym k k1 k2) (hm id (table4.id_mem (by norm_num)))
    refine ⟨e1, funext fun v => ?_⟩
    have := (table4.back _ k1 k2).2.1 v
    rwa [e1] at this
  simp only [RotOps3.ofIndices, RotOps3.plain, hx]

/-- **C118**, part that holds (the full claim fails by `c118_violation_unrotated`): where every two neighbours are stored less than 45 degrees
apart, the rate with symmetry and fluxes from differences (no assertions) is the one without symmetry. -/
theorem c118_unlabelled_partial (P : CoefParams) (hP : Accepted P) (G : Grid3) (q : QField3 4) (hq : ∀ p, dot (q p) (q p) = 1)
    (h : ∀ d p, Real.cos (Real.pi / 8) < dot (q p) (q (mv d (-1) p))) (old k : Fin 3 → Cell → ℤ) (useDiffs : Bool) (p : Cell) :
    evaluateQuatRHS3 false true true false P G (symmRot3 q old) q p = evaluateQuatRHS3 false false useDiffs false P G k q p :=
  unlabelled (by norm_num) P G _ k q (close_plain q hq h old) useDiffs p hP (by
    intro e; have := hq p; rw [e] at this; simp [dot] at this)

/-! ## Another choice of copies -/

section relabel

variable {n : ℕ} {R R' : RotOps3 n} {γ : Cell → QVec n → QVec n}

/-- Rotations before and after a change `γ` of the stored copies. -/
structure Related3 (R R' : RotOps3 n) (γ : Cell → QVec n → QVec n) : Prop where
  r : ∀ d p v, R'.r d p (γ (mv d (-1) p) v) = γ p (R.r d p v)
  ri : ∀ d p v, R'.ri d p (γ p v) = γ (mv d (-1) p) (R.ri d p v)

variable (hγ : ∀ p, LinIso (γ p)) (hR : Related3 R R' γ)

include hγ hR

theorem diff_cov3 (q : QField3 n) (d : Fin 3) (p : Cell) :
    qdiff3 R'.r (fun p => γ p (q p)) d p = γ p (qdiff3 R.r q d p) := by
  simp only [qdiff3]; rw [hR.r, (hγ p).sub]

theorem grad_cov3 (h : Fin 3 → ℝ) (D : Fin 3 → QField3 n) (s c : Fin 3) (p : Cell) :
    sideGrad3 h R' (fun d p => γ p (D d p)) s c p = γ p (sideGrad3 h R D s c p) := by
  by_cases e : c = s
  · subst e
    rw [sideGrad3_self, sideGrad3_self, (hγ p).smul]
  · have ex : ∀ (R : RotOps3 n) (D : Fin 3 → QField3 n), sideGrad3 h R D s c p = (0.25 * (1 / h c)) •
        (R.r s p (R.ri c (mv c 1 (mv s (-1) p)) (D c (mv c 1 (mv s (-1) p))) + D c (mv s (-1) p))
          + R.ri c (mv c 1 p) (D c (mv c 1 p)) + D c p) := by
      intro R D; funext m; simp [sideGrad3, e]
    rw [ex, ex, hR.ri, hR.ri, mv_down_up, mv_down_up, ← (hγ (mv s (-1) p)).add, hR.r, ← (hγ p).add, ← (hγ p).add, ← (hγ p).smul]

theorem coefs_cov (P : CoefParams) (G : Grid3) (q : QField3 n) (c : Fin 3 → Cell → ℝ) (hc : Coefs P G R R q c) :
    Coefs P G R' R' (fun p => γ p (q p)) c := by
  intro d p
  rw [← hc d p]
  have hd : qdiff3 R'.r (fun p => γ p (q p)) = fun d p => γ p (qdiff3 R.r q d p) := by
    funext d p; exact diff_cov3 hγ hR q d p
  rw [hd]
  have e : ∀ v : QVec n, acc (fun m => v m ^ 2) = dot v v := fun v => by
    rw [acc_eq]; exact Finset.sum_congr rfl fun m _ => by ring
  simp only [coef3, grad_cov3 hγ hR, faceCoef3, e, (hγ p).dot]

end relabel

/-- The index arrays before and after a change of copies give related rotations. -/
theorem related3 {n : ℕ} {N : ℤ} {Sym : (QVec n → QVec n) → Prop} (T : Table n N Sym) (q : QField3 n)
    (hq : ∀ p, dot (q p) (q p) = 1) (γ : Cell → QVec n → QVec n) (hγ : ∀ p, Sym (γ p))
    (hu : ∀ d p, UniqueNearest Sym (q p) (q (mv d (-1) p))) (old old' : Fin 3 → Cell → ℤ) :
    Related3 (RotOps3.ofIndices n (symmRot3 q old)) (RotOps3.ofIndices n (symmRot3 (fun p => γ p (q p)) old')) γ := by
  have hx : ∀ d p, (1 ≤ symmRot3 q old d p ∧ symmRot3 q old d p ≤ N) ∧
      (1 ≤ symmRot3 (fun p => γ p (q p)) old' d p ∧ symmRot3 (fun p => γ p (q p)) old' d p ≤ N) ∧
      ∀ v : QVec n, rotBy (symmRot3 (fun p => γ p (q p)) old' d p) (γ (mv d (-1) p) v) = γ p (rotBy (symmRot3 q old d p) v) := by
    intro d p
    obtain ⟨k, r, e, -⟩ := T.search (q p) (q (mv d (-1) p)) (old d p) (hq _) (hq _)
    obtain ⟨k', r', e', -⟩ := T.search (γ p (q p)) (γ (mv d (-1) p) (q (mv d (-1) p))) (old' d p)
      (by rw [(T.iso _ (hγ p)).dot, hq]) (by rw [(T.iso _ (hγ (mv d (-1) p))).dot, hq])
    have := T.side _ _ (hq _) (hq _) _ _ (hγ p) (hγ (mv d (-1) p)) (hu d p) _ _ _ _ _ _ e e'
    simpa only [symmRot3, e, e', Option.map_some, Option.getD_some] using this
  refine ⟨fun d p v => (hx d p).2.2 v, fun d p v => ?_⟩
  obtain ⟨⟨a1, a2⟩, ⟨b1, b2⟩, h⟩ := hx d p
  simp only [RotOps3.ofIndices]
  have := h (rotBy (-1 * symmRot3 q old d p) v)
  rw [(T.back _ a1 a2).2.2] at this
  rw [← this, (T.back _ b1 b2).2.1]

/-- **C118 fails** (quaternions): the rate after storing each orientation as another copy, in terms of the differences and
coefficients before. Only the lower fluxes change with the copy of the cell itself; the upper ones change with the copy of the
neighbour. -/
theorem c118_violation_relabel4 (P : CoefParams) (hP : Accepted P) (G : Grid3) (q : QField3 4) (hq : ∀ p, dot (q p) (q p) = 1)
    (γ : Cell → QVec 4 → QVec 4) (hγ : ∀ p, Sym4 (γ p)) (hu : ∀ d p, UniqueNearest Sym4 (q p) (q (mv d (-1) p)))
    (old old' : Fin 3 → Cell → ℤ) :
    ∃ c, Coefs P G (RotOps3.ofIndices 4 (symmRot3 q old)) (RotOps3.ofIndices 4 (symmRot3 q old)) q c ∧ ∀ p,
      evaluateQuatRHS3 false true true false P G (symmRot3 (fun p => γ p (q p)) old') (fun p => γ p (q p)) p
        = some ((-G.mob p) • tangent (γ p (q p)) (∑ d, (1 / G.h d ^ 2) •
          (c d (mv d 1 p) • γ (mv d 1 p) (qdiff3 (RotOps3.ofIndices 4 (symmRot3 q old)).r q d (mv d 1 p))
            - c d p • γ p (qdiff3 (RotOps3.ofIndices 4 (symmRot3 q old)).r q d p)))) := by
  obtain ⟨c, hc⟩ := coefs_exist P hP G (RotOps3.ofIndices 4 (symmRot3 q old)) (RotOps3.ofIndices 4 (symmRot3 q old)) q
  have hi : ∀ p, LinIso (γ p) := fun p => table4.iso _ (hγ p)
  have hR := related3 table4 q hq γ hγ hu old old'
  refine ⟨c, hc, fun p => ?_⟩
  rw [eval_main (by norm_num) false true true rfl rfl P G _ _ _ rfl c (coefs_cov hi hR P G q c hc) p
    (by rw [(hi p).dot, hq]; norm_num)]
  unfold driving3
  simp only [if_true, diff_cov3 hi hR]
  rfl

theorem neg_sym : Sym4 fun v => -v := by
  refine ⟨⟨-1, 0, 0, 0⟩, by norm_num [lenSq], ?_, fun v => ?_⟩
  · intro i j
    fin_cases i <;> fin_cases j <;> simp [quatrotationmatrix]
  · funext m
    fin_cases m <;> simp [QuatFlow.ofQ4, QuatFlow.toQ4, quatmult4]

theorem cos_below : Real.cos (Real.pi / 8) < 0.96 := by
  rw [Real.cos_pi_div_eight]
  have h2 : Real.sqrt 2 < 1.4143 := by
    rw [Real.sqrt_lt' (by norm_num)]; norm_num
  have : Real.sqrt (2 + Real.sqrt 2) < 1.92 := by
    rw [Real.sqrt_lt' (by norm_num)]
    norm_num at h2 ⊢
    linarith
  norm_num at this ⊢
  linarith

/-- Two crystals 32 degrees apart, meeting at `x = 1`. -/
noncomputable def bicrystal : QField3 4 := fun p => if p.1 < 1 then ![1, 0, 0, 0] else ![0.96, 0.28, 0, 0]

theorem bicrystal_unit (p : Cell) : dot (bicrystal p) (bicrystal p) = 1 := by
  by_cases h : p.1 < 1 <;> simp [bicrystal, h, dot, Fin.sum_univ_four] <;> norm_num

theorem bicrystal_close (d : Fin 3) (p : Cell) : Real.cos (Real.pi / 8) < dot (bicrystal p) (bicrystal (mv d (-1) p)) := by
  have hc := cos_below
  have c1 : Real.cos (Real.pi / 8) < 1 := lt_trans hc (by norm_num)
  unfold bicrystal
  by_cases h : p.1 < 1 <;> by_cases h' : (mv d (-1) p).1 < 1 <;> simp [h, h', dot, Fin.sum_univ_four] <;> norm_num at hc c1 ⊢ <;>
    assumption

/-- **C118 fails**: two crystals meeting at a face. When the right one is stored as the negative of its quaternions, which
is the same crystal, the rate of the cell on the left of the face changes sign. `c` is the coefficient of the face. -/
theorem c118_violation_reversed (P : CoefParams) (hP : Accepted P) (G : Grid3) (old old' : Fin 3 → Cell → ℤ) (j k : ℤ) :
    let q' : QField3 4 := fun p => if p.1 < 1 then bicrystal p else -bicrystal p
    ∃ c, coef3 P G (sideGrad3 G.h (RotOps3.plain 4) (qdiff3 (RotOps3.plain 4).r bicrystal)) 0 (1, j, k) = some c ∧
      evaluateQuatRHS3 false true true false P G (symmRot3 bicrystal old) bicrystal (0, j, k)
        = some ![0, -(0.28 * (G.mob (0, j, k) * c / G.h 0 ^ 2)), 0, 0] ∧
      evaluateQuatRHS3 false true true false P G (symmRot3 q' old') q' (0, j, k)
        = some ![0, 0.28 * (G.mob (0, j, k) * c / G.h 0 ^ 2), 0, 0] := by
  intro q'
  have hid : Sym4 id := table4.id_mem (by norm_num)
  have hu : ∀ d p, UniqueNearest Sym4 (bicrystal p) (bicrystal (mv d (-1) p)) := fun d p =>
    c76_unique_below_45 _ _ (bicrystal_unit _) (bicrystal_unit _) id hid (bicrystal_close d p)
  have hpl := close_plain bicrystal bicrystal_unit bicrystal_close old
  let γ : Cell → QVec 4 → QVec 4 := fun p => if p.1 < 1 then id else fun v => -v
  have hγ : ∀ p, Sym4 (γ p) := by
    intro p
    by_cases h : p.1 < 1
    · simp only [γ, h, if_true]; exact hid
    · simp only [γ, h, if_false]; exact neg_sym
  have hq' : q' = fun p => γ p (bicrystal p) := by
    funext p
    by_cases h : p.1 < 1 <;> simp [q', γ, h]
  obtain ⟨c, hc, e1⟩ := c118_violation_relabel4 P hP G bicrystal bicrystal_unit γ hγ hu old old'
  obtain ⟨c', hc', e2⟩ := c118_violation_relabel4 P hP G bicrystal bicrystal_unit (fun _ => id) (fun _ => hid) hu old old
  have hcc : c' = c := by
    funext d p
    have := (hc d p).symm.trans (hc' d p)
    exact (Option.some.inj this).symm
  subst hcc
  rw [hpl] at hc e1 e2
  have s1 : ∀ d, d ≠ 0 → ∀ p, qdiff3 (RotOps3.plain 4).r bicrystal d p = 0 := by
    intro d hd p
    obtain ⟨a, b, c⟩ := p
    fin_cases d
    · exact absurd rfl hd
    · simp [qdiff3, RotOps3.plain, bicrystal, mv]; exact sub_self _
    · simp [qdiff3, RotOps3.plain, bicrystal, mv]; exact sub_self _
  have s2 : qdiff3 (RotOps3.plain 4).r bicrystal 0 (0, j, k) = 0 := by
    simp [qdiff3, RotOps3.plain, bicrystal, mv]
  have s3 : qdiff3 (RotOps3.plain 4).r bicrystal 0 (1, j, k) = ![-0.04, 0.28, 0, 0] := by
    funext m
    fin_cases m <;> simp [qdiff3, RotOps3.plain, bicrystal, mv] <;> norm_num
  have m0 : mv 0 1 (0, j, k) = (1, j, k) := by simp [mv]
  have b0 : bicrystal (0, j, k) = ![1, 0, 0, 0] := by simp [bicrystal]
  refine ⟨c' 0 (1, j, k), hc 0 (1, j, k), ?_, ?_⟩
  · have := e2 (0, j, k)
    simp only [id] at this
    rw [this]
    simp only [Fin.sum_univ_three, s1 1 (by decide), s1 2 (by decide), s2, m0, s3, b0, smul_zero, sub_zero, add_zero]
    congr 1
    funext m
    fin_cases m <;> simp [tangent, dot, Fin.sum_univ_four] <;> ring
  · rw [hq', e1 (0, j, k)]
    have g1 : γ (1, j, k) = fun v => -v := by simp [γ]
    have g0 : γ (0, j, k) = id := by simp [γ]
    have gz : ∀ p, γ p 0 = 0 := by
      intro p; by_cases h : p.1 < 1 <;> simp [γ, h]
    simp only [Fin.sum_univ_three, s1 1 (by decide), s1 2 (by decide), s2, m0, s3, b0, gz, g0, g1, id, smul_zero, sub_zero,
      add_zero]
    congr 1
    funext m
    fin_cases m <;> simp [tangent, dot, Fin.sum_univ_four] <;> ring

/-! ## The hypotheses are met -/

/-- Two different crystals whose stored orientations are close. -/
example (P : CoefParams) (hP : Accepted P) (G : Grid3) (p : Cell) :
    evaluateQuatRHS3 false true true false P G (symmRot3 bicrystal fun _ _ => 0) bicrystal p
      = evaluateQuatRHS3 false false true false P G (fun _ _ => 0) bicrystal p :=
  c118_unlabelled_partial P hP G bicrystal bicrystal_unit bicrystal_close _ _ true p

/-- The face of the two crystals has a coefficient that is not zero. -/
example : Accepted ⟨1, 2, 1, 'm', 'p', 'c', 'a'⟩ ∧
    faceCoef3 ⟨1, 2, 1, 'm', 'p', 'c', 'a'⟩ 1 1 3 3 ![(![-0.04, 0.28, 0, 0] : QVec 4), 0, 0] = some (-7) := by
  refine ⟨by simp [Accepted], ?_⟩
  simp [faceCoef3, AMPE.Functions.averageFunc, AMPE.Functions.interpFunc, AMPE.Functions.clamp, evalGradNormi, acc_eq,
    Fin.sum_univ_four]
  norm_num

/-- A checkerboard of two orientations without symmetry. -/
example (G : Grid3) (hG : G = ⟨![0.5, 0.25, 1], fun _ => 1, fun _ => 3, fun _ => 2⟩) :
    Dissipates3 ![2, 2, 2] (0, 0, 0) true false true ⟨1, 2, 1, 'm', 'p', 'c', 'a'⟩ G (fun _ _ => 0)
      (fun p => if (p.1 + p.2.1 + p.2.2) % 2 = 0 then ![1, 0, 0, 0] else ![0.6, 0.8, 0, 0]) (RotOps3.plain 4) (RotOps3.plain 4) := by
  subst hG
  refine c118_dissipates_plain (by norm_num) _ _ true true _ (by simp [Accepted]) _ _ _ ?_ (fun _ => by norm_num) ?_
    (fun _ _ => rfl) (fun _ _ => rfl) (fun _ _ => rfl)
  · intro p h
    have := congrFun h 0
    split_ifs at this <;> norm_num at this
  · intro d p
    obtain ⟨a, b, c⟩ := p
    have e : ((mv d ((![2, 2, 2] : Fin 3 → ℕ) d) (a, b, c)).1 + (mv d ((![2, 2, 2] : Fin 3 → ℕ) d) (a, b, c)).2.1
        + (mv d ((![2, 2, 2] : Fin 3 → ℕ) d) (a, b, c)).2.2) % 2 = (a + b + c) % 2 := by
      fin_cases d <;> simp [mv] <;> omega
    simp only [e]

end AMPE.QuatFlow3.Props
