import Verif.Model.OrientSolve
import Verif.Proofs.Functions
import Mathlib.Analysis.SpecialFunctions.ExpDeriv
import Mathlib.Analysis.Calculus.Deriv.Inv
import Mathlib.Analysis.Calculus.Deriv.Pow
import Mathlib.Tactic.Linarith
import Mathlib.Tactic.Ring
import Mathlib.Tactic.FieldSimp
import Mathlib.Tactic.LinearCombination
import Mathlib.Tactic.Positivity
import Mathlib.Algebra.BigOperators.Field
import Mathlib.Algebra.Order.BigOperators.Group.Finset

/-! # C41: orientation mobility; C42: tangent corrections and projection -/

namespace AMPE.OrientSolve.Props

open AMPE.OrientSolve AMPE.Flux AMPE.Tagging

/-! ## C41 -/

theorem clamp01 (x : ℝ) : 0 ≤ max 0 (min 1 x) ∧ max 0 (min 1 x) ≤ 1 :=
  ⟨le_max_left _ _, max_le zero_le_one (min_le_left _ _)⟩

theorem poly_range (p : ℝ) (h0 : 0 ≤ p) (h1 : p ≤ 1) :
    0 ≤ p * p * p * (10 - 15 * p + 6 * p * p) ∧ p * p * p * (10 - 15 * p + 6 * p * p) ≤ 1 := by
  constructor
  · have : 0 ≤ 10 - 15 * p + 6 * p * p := by nlinarith
    positivity
  · have e : 1 - p * p * p * (10 - 15 * p + 6 * p * p) = (1 - p) ^ 3 * (6 * p ^ 2 + 3 * p + 1) := by ring
    have : 0 ≤ (1 - p) ^ 3 * (6 * p ^ 2 + 3 * p + 1) := by
      have : 0 ≤ 1 - p := by linarith
      positivity
    linarith

theorem exp_range (c p : ℝ) (hc : c ≠ 0) (h0 : 0 ≤ p) (h1 : p ≤ 1) :
    0 ≤ (1 - Real.exp (c * p)) / (1 - Real.exp c) ∧ (1 - Real.exp (c * p)) / (1 - Real.exp c) ≤ 1 := by
  rcases lt_or_gt_of_ne hc with h | h
  · have a : Real.exp c < 1 := Real.exp_lt_one_iff.mpr h
    have b : Real.exp (c * p) ≤ 1 := Real.exp_le_one_iff.mpr (mul_nonpos_of_nonpos_of_nonneg h.le h0)
    have d : Real.exp c ≤ Real.exp (c * p) := Real.exp_le_exp.mpr (by nlinarith)
    exact ⟨div_nonneg (by linarith) (by linarith), (div_le_one (by linarith)).mpr (by linarith)⟩
  · have a : 1 < Real.exp c := Real.one_lt_exp_iff.mpr h
    have b : 1 ≤ Real.exp (c * p) := Real.one_le_exp (mul_nonneg h.le h0)
    have d : Real.exp (c * p) ≤ Real.exp c := Real.exp_le_exp.mpr (by nlinarith)
    exact ⟨div_nonneg_of_nonpos (by linarith) (by linarith), (div_le_one_of_neg (by linarith)).mpr (by linarith)⟩

theorem mobility_between (scale minM q : ℝ) (h : minM ≤ scale) (q0 : 0 ≤ q) (q1 : q ≤ 1) :
    minM ≤ minM + (scale - minM) * q ∧ minM + (scale - minM) * q ≤ scale := by
  have : 0 ≤ scale - minM := by linarith
  constructor <;> nlinarith

/-- **C41**: polynomial kind: between minimum and scale for every phase value, inside [0,1] or not. -/
theorem c41_bounds_poly (scale minM alt phase : ℝ) (h : minM ≤ scale) :
    ∃ M, quatMobility 'p' scale minM alt phase = some M ∧ minM ≤ M ∧ M ≤ scale := by
  refine ⟨_, by simp [quatMobility, qfunc]; rfl, ?_⟩
  obtain ⟨a, b⟩ := clamp01 phase
  obtain ⟨c, d⟩ := poly_range _ a b
  exact mobility_between _ _ _ h (by linarith) (by linarith)

/-- **C41**: exponential kind, any non-zero rate. -/
theorem c41_bounds_exp (scale minM alt phase : ℝ) (h : minM ≤ scale) (ha : alt ≠ 0) :
    ∃ M, quatMobility 'e' scale minM alt phase = some M ∧ minM ≤ M ∧ M ≤ scale := by
  refine ⟨_, by simp [quatMobility, qfunc]; rfl, ?_⟩
  obtain ⟨a, b⟩ := clamp01 phase
  obtain ⟨c, d⟩ := exp_range alt _ ha a b
  exact mobility_between _ _ _ h (by linarith) (by linarith)

/-- **C41**: inverse kind: from the minimum up to the cap. -/
theorem c41_bounds_inverse (scale minM alt phase : ℝ) (h : minM ≤ scale) (ha : 0 ≤ alt) :
    ∃ M, quatMobility 'i' scale minM alt phase = some M ∧ minM ≤ M ∧ M ≤ minM + (scale - minM) * alt := by
  refine ⟨_, by simp [quatMobility, qfunc]; rfl, ?_⟩
  have s : 0 ≤ scale - minM := by linarith
  constructor
  · have := mul_nonneg s (le_min (le_max_left 0 ((1 - max 1e-6 (min 1 phase)) / (max 1e-6 (min 1 phase) * max 1e-6 (min 1 phase)))) ha)
    norm_num at this ⊢
    linarith
  · have := mul_le_mul_of_nonneg_left (min_le_right (max 0 ((1 - max 1e-6 (min 1 phase)) / (max 1e-6 (min 1 phase) * max 1e-6 (min 1 phase)))) alt) s
    norm_num at this ⊢
    linarith

/-- **C41**: end values: full mobility in the liquid, minimum in the solid. -/
theorem c41_end_values (scale minM alt : ℝ) (ha : alt ≠ 0) :
    quatMobility 'p' scale minM alt 0 = some scale ∧ quatMobility 'p' scale minM alt 1 = some minM ∧
    quatMobility 'e' scale minM alt 0 = some scale ∧ quatMobility 'e' scale minM alt 1 = some minM := by
  have e : 1 - Real.exp alt ≠ 0 := by
    intro h
    apply ha
    rw [← Real.exp_eq_one_iff]; linarith
  refine ⟨?_, ?_, ?_, ?_⟩ <;> simp [quatMobility, qfunc]
  · right; norm_num
  · rw [div_self e]; simp

/-- **C41**: an unknown kind stops the run. -/
theorem c41_unknown_kind (k : Char) (h : k ∉ ['p', 'P', 'e', 'E', 'i', 'I']) (scale minM alt phase : ℝ) :
    quatMobility k scale minM alt phase = none ∧ quatMobilityDeriv k scale minM alt phase = none := by
  simp only [List.mem_cons, List.not_mem_nil, or_false, not_or] at h
  simp [quatMobility, quatMobilityDeriv, qfunc, dqfunc, h]

/-- `d` is the derivative of the mobility at `phase`. -/
def IsDeriv (kind : Char) (scale minM alt phase d : ℝ) : Prop :=
  ∃ M : ℝ → ℝ, (∀ p, quatMobility kind scale minM alt p = some (M p)) ∧ HasDerivAt M d phase

/-- **C41**: polynomial kind: the derivative routine is right everywhere, on and beyond the clamps too. -/
theorem c41_deriv_poly (scale minM alt phase : ℝ) :
    ∃ d, quatMobilityDeriv 'p' scale minM alt phase = some d ∧ IsDeriv 'p' scale minM alt phase d := by
  refine ⟨_, by simp [quatMobilityDeriv, dqfunc]; rfl, _, fun p => by simp [quatMobility, qfunc]; rfl, ?_⟩
  have g : ∀ x ∈ Set.Icc (0:ℝ) 1, HasDerivAt (fun y => minM + (scale - minM) * (1 - y * y * y * (10 - 15 * y + 6 * y * y)))
      ((scale - minM) * (-30 * x * x * (1 - x) * (1 - x))) x := by
    intro x _
    have h1 : HasDerivAt (fun y : ℝ => 1 - (10 * y ^ 3 - 15 * y ^ 4 + 6 * y ^ 5))
        (0 - (10 * (((3 : ℕ) : ℝ) * x ^ 2) - 15 * (((4 : ℕ) : ℝ) * x ^ 3) + 6 * (((5 : ℕ) : ℝ) * x ^ 4))) x :=
      (hasDerivAt_const x (1:ℝ)).sub
        ((((hasDerivAt_pow 3 x).const_mul 10).sub ((hasDerivAt_pow 4 x).const_mul 15)).add ((hasDerivAt_pow 5 x).const_mul 6))
    have h2 := (h1.const_mul (scale - minM)).const_add minM
    have hf : (fun y => minM + (scale - minM) * (1 - y * y * y * (10 - 15 * y + 6 * y * y))) =
        fun x => minM + (scale - minM) * (1 - (10 * x ^ 3 - 15 * x ^ 4 + 6 * x ^ 5)) := by funext y; ring
    rw [hf]
    exact h2.congr_deriv (by push_cast; ring)
  have := AMPE.Functions.hasDerivAt_clamp g (by ring) (by ring) phase
  unfold AMPE.Functions.clamp at this
  exact this.congr_deriv (by ring)

/-- **C41**: exponential kind: right strictly between the clamps. -/
theorem c41_deriv_exp_partial (scale minM alt phase : ℝ) (h0 : 0 < phase) (h1 : phase < 1) :
    ∃ d, quatMobilityDeriv 'e' scale minM alt phase = some d ∧ IsDeriv 'e' scale minM alt phase d := by
  refine ⟨_, by simp [quatMobilityDeriv, dqfunc]; rfl, _, fun p => by simp [quatMobility, qfunc]; rfl, ?_⟩
  refine AMPE.Functions.hasDerivAt_congr_Ioo (c := 0) (e := 1) ⟨h0, h1⟩
    (a := fun y => minM + (scale - minM) * (1 - (1 - Real.exp (alt * y)) / (1 - Real.exp alt))) ?_ ?_
  · intro y hy
    rw [min_eq_right hy.2.le, max_eq_right hy.1.le]
  · rw [min_eq_right h1.le, max_eq_right h0.le]
    have e : HasDerivAt (fun y => Real.exp (alt * y)) (Real.exp (alt * phase) * (alt * 1)) phase :=
      ((hasDerivAt_id phase).const_mul alt).exp
    have := ((((hasDerivAt_const phase (1:ℝ)).sub e).div_const (1 - Real.exp alt)).const_sub 1).const_mul (scale - minM)
      |>.const_add minM
    exact this.congr_deriv (by ring)

theorem quot_deriv (x : ℝ) (hx : x ≠ 0) : HasDerivAt (fun y : ℝ => (1 - y) / (y * y)) ((x - 2) / (x * x * x)) x := by
  have := ((hasDerivAt_const x (1:ℝ)).sub (hasDerivAt_id x)).div ((hasDerivAt_id x).mul (hasDerivAt_id x)) (mul_ne_zero hx hx)
  refine this.congr_deriv ?_
  simp only [id_eq, Pi.mul_apply, Pi.sub_apply]
  field_simp
  ring

/-- **C41**: inverse kind: right where neither the clamps nor the cap act. -/
theorem c41_deriv_inverse_partial (scale minM alt phase : ℝ) (h0 : 1e-6 < phase) (h1 : phase < 1)
    (hcap : (1 - phase) / (phase * phase) < alt) :
    ∃ d, quatMobilityDeriv 'i' scale minM alt phase = some d ∧ IsDeriv 'i' scale minM alt phase d := by
  refine ⟨_, by simp only [quatMobilityDeriv, dqfunc]; rfl, _, fun p => by simp only [quatMobility, qfunc]; rfl, ?_⟩
  have hp : phase ≠ 0 := by norm_num at h0; linarith
  have hc : ContinuousAt (fun y : ℝ => (1 - y) / (y * y)) phase := (quot_deriv phase hp).continuousAt
  have ev : ∀ᶠ y in nhds phase, (1 - y) / (y * y) < alt := hc.eventually_lt continuousAt_const hcap
  have hd := ((quot_deriv phase hp).const_mul (scale - minM)).const_add minM
  rw [min_eq_right h1.le, max_eq_right h0.le]
  refine hd.congr_of_eventuallyEq ?_
  filter_upwards [ev, Ioo_mem_nhds h0 h1] with y hy hy'
  rw [min_eq_right hy'.2.le, max_eq_right hy'.1.le]
  have pos : 0 < y := lt_trans (by norm_num) hy'.1
  have : 0 ≤ (1 - y) / (y * y) := div_nonneg (by linarith [hy'.2]) (by positivity)
  rw [max_eq_right this, min_eq_left hy.le]

/-- **C41** (violation): exponential kind beyond the clamps: the mobility is constant, the routine returns a
non-zero derivative. -/
theorem c41_violation_exp_outside (scale minM alt phase : ℝ) (hs : scale ≠ minM) (ha : alt ≠ 0) (hp : 1 < phase ∨ phase < 0) :
    IsDeriv 'e' scale minM alt phase 0 ∧ ∀ d, quatMobilityDeriv 'e' scale minM alt phase = some d → d ≠ 0 := by
  constructor
  · refine ⟨_, fun p => by simp [quatMobility, qfunc]; rfl, ?_⟩
    rcases hp with hp | hp
    · refine AMPE.Functions.hasDerivAt_congr_gt hp (a := fun _ => minM + (scale - minM) * (1 - (1 - Real.exp (alt * 1)) / (1 - Real.exp alt))) ?_ (hasDerivAt_const _ _)
      intro y hy
      rw [min_eq_left hy.le, max_eq_right zero_le_one]
    · refine AMPE.Functions.hasDerivAt_congr_lt hp (a := fun _ => minM + (scale - minM) * (1 - (1 - Real.exp (alt * 0)) / (1 - Real.exp alt))) ?_ (hasDerivAt_const _ _)
      intro y hy
      rw [min_eq_right (by linarith), max_eq_left hy.le]
  · intro d h
    simp [quatMobilityDeriv, dqfunc] at h
    rw [← h]
    refine mul_ne_zero (sub_ne_zero.mpr hs) (div_ne_zero (mul_ne_zero ha (Real.exp_ne_zero _)) ?_)
    intro he
    exact ha (Real.exp_eq_one_iff alt |>.mp (by linarith))

/-- **C41** (violation): inverse kind where the cap acts: the mobility is constant at its cap, the routine returns
the slope of the uncapped function, which is negative. -/
theorem c41_violation_inverse_capped (scale minM alt phase : ℝ) (hs : minM < scale) (h0 : 1e-6 < phase) (h1 : phase < 1)
    (hcap : alt < (1 - phase) / (phase * phase)) :
    IsDeriv 'i' scale minM alt phase 0 ∧ ∀ d, quatMobilityDeriv 'i' scale minM alt phase = some d → d < 0 := by
  have hpos : 0 < phase := lt_trans (by norm_num) h0
  constructor
  · refine ⟨_, fun p => by simp only [quatMobility, qfunc]; rfl, ?_⟩
    have hc : ContinuousAt (fun y : ℝ => (1 - y) / (y * y)) phase := (quot_deriv phase hpos.ne').continuousAt
    have ev : ∀ᶠ y in nhds phase, alt < (1 - y) / (y * y) := continuousAt_const.eventually_lt hc hcap
    refine (hasDerivAt_const phase (minM + (scale - minM) * alt)).congr_of_eventuallyEq ?_
    filter_upwards [ev, Ioo_mem_nhds h0 h1] with y hy hy'
    rw [min_eq_right hy'.2.le, max_eq_right hy'.1.le, min_eq_right (le_trans hy.le (le_max_right _ _))]
  · intro d h
    simp only [quatMobilityDeriv, dqfunc, Char.reduceEq, or_self, if_false, true_or, if_true, Option.map_some, Option.some.injEq] at h
    rw [← h, min_eq_right h1.le, max_eq_right h0.le]
    exact mul_neg_of_pos_of_neg (by linarith) (div_neg_of_neg_of_pos (by linarith) (by positivity))

/-- The capped case occurs: cap 10 at phase 0.1 (uncapped value 90). -/
example : (1e-6 : ℝ) < 0.1 ∧ (0.1 : ℝ) < 1 ∧ (10 : ℝ) < (1 - 0.1) / (0.1 * 0.1) := by norm_num

/-- The uncapped case occurs too: phase 0.5, uncapped value 2, cap 10. -/
example : (1e-6 : ℝ) < 0.5 ∧ (0.5 : ℝ) < 1 ∧ (1 - 0.5) / (0.5 * 0.5) < (10 : ℝ) := by norm_num

/-! ## C42 -/

theorem acc_eq {n : ℕ} (t : Fin n → ℝ) : acc t = ∑ m, t m := by
  unfold acc
  have : ∀ (l : List (Fin n)) (s : ℝ), l.foldl (fun s m => s + t m) s = s + (l.map t).sum := by
    intro l
    induction l with
    | nil => simp
    | cons c l ih => intro s; rw [List.foldl_cons, ih]; simp only [List.map_cons, List.sum_cons]; ring
  rw [this, zero_add, ← List.ofFn_eq_map, List.sum_ofFn]

/-- Scalar product of orientation vectors. -/
noncomputable def dot {n : ℕ} (a b : QVec n) : ℝ := ∑ m, a m * b m

theorem dot_self_eq_zero {n : ℕ} (q : QVec n) : dot q q = 0 ↔ q = 0 := by
  unfold dot
  rw [Finset.sum_eq_zero_iff_of_nonneg fun m _ => mul_self_nonneg _]
  simp [funext_iff]

theorem dot_self_pos {n : ℕ} (q : QVec n) (h : q ≠ 0) : 0 < dot q q :=
  lt_of_le_of_ne (Finset.sum_nonneg fun m _ => mul_self_nonneg _) fun e => h ((dot_self_eq_zero q).mp e.symm)

/-- **C42**: the symmetry correction is orthogonal to the orientation, for every orientation other than zero, any
differences, rotations, coefficients, mobility and depth above one. -/
theorem c42_correction_tangent {n : ℕ} (hn : 1 < n) (mobility dx dy : ℝ) (q : QVec n) (hq : q ≠ 0) (nX nY sX sY : QField n)
    (RX RY : ℤ → ℤ → QVec n → QVec n) (fx fy : Field2) (i j : ℤ) :
    ∃ a, symmAdd mobility q (symmTmp dx dy nX nY sX sY RX RY fx fy i j) = some a ∧ dot q a = 0 := by
  generalize symmTmp dx dy nX nY sX sY RX RY fx fy i j = tmp
  have hb := dot_self_pos q hq
  have e : acc (fun m => q m * q m) = dot q q := acc_eq _
  have e' : acc (fun m => q m * tmp m) = dot q tmp := acc_eq _
  unfold symmAdd
  rw [if_pos hn]
  simp only [e, e']
  rw [if_neg hb.ne']
  refine ⟨_, rfl, ?_⟩
  have : dot q (fun m => mobility * (tmp m - dot q tmp / dot q q * q m)) =
      mobility * (dot q tmp - dot q tmp / dot q q * dot q q) := by
    simp only [dot, mul_sub, Finset.mul_sum, ← Finset.sum_sub_distrib]
    exact Finset.sum_congr rfl fun m _ => by ring
  rw [this, div_mul_cancel₀ _ hb.ne', sub_self, mul_zero]

/-- **C42**: where symmetry plays no role (plain and symmetry-aware differences agree) nothing is added. -/
theorem c42_correction_zero {n : ℕ} (mobility dx dy : ℝ) (q : QVec n) (hq : q ≠ 0) (nX nY sX sY : QField n)
    (RX RY : ℤ → ℤ → QVec n → QVec n) (fx fy : Field2) (i j : ℤ)
    (h1 : RX (i + 1) j (sX (i + 1) j) = nX (i + 1) j) (h2 : sX i j = nX i j)
    (h3 : RY i (j + 1) (sY i (j + 1)) = nY i (j + 1)) (h4 : sY i j = nY i j) :
    symmAdd mobility q (symmTmp dx dy nX nY sX sY RX RY fx fy i j) = some 0 := by
  have z : symmTmp dx dy nX nY sX sY RX RY fx fy i j = 0 := by
    funext m; unfold symmTmp; rw [h1, h2, h3, h4]; simp
  rw [z]
  have hb := (dot_self_pos q hq).ne'
  have e : acc (fun m => q m * q m) = dot q q := acc_eq _
  unfold symmAdd
  split_ifs with h
  · simp only [e]
    rw [if_neg hb]
    simp only [acc_eq]
    congr 1; funext m; simp
  · congr 1; funext m; simp

/-- **C42**: the right-hand side with the Lagrange multiplier has no component along the orientation. -/
theorem c42_multiplier_tangent {n : ℕ} (mobility hx hy : ℝ) (left right down up q : QVec n) (hq : q ≠ 0) :
    ∃ l, lambdaFlux hx hy left right down up q = some l ∧
      dot q (projOp mobility hx hy left right down up q l) = 0 := by
  have hb := dot_self_pos q hq
  have e : acc (fun m => q m ^ 2) = dot q q := by
    rw [acc_eq]; exact Finset.sum_congr rfl fun m _ => by ring
  have fold : ∀ (t : Fin n → ℝ) (L : List (Fin n)) (s : ℝ), L.foldl (fun s m => s - t m) s = s - (L.map t).sum := by
    intro t L
    induction L with
    | nil => simp
    | cons c L ih => intro s; rw [List.foldl_cons, ih]; simp only [List.map_cons, List.sum_cons]; ring
  unfold lambdaFlux
  simp only [e]
  rw [if_neg hb.ne']
  refine ⟨_, rfl, ?_⟩
  rw [fold fun m => q m * ((right m - left m) * (0.5 / hx) + (up m - down m) * (0.5 / hy)), ← List.ofFn_eq_map, List.sum_ofFn, zero_sub]
  set A := ∑ m, q m * ((right m - left m) * (0.5 / hx) + (up m - down m) * (0.5 / hy)) with hA
  have : dot q (projOp mobility hx hy left right down up q (-A / dot q q)) =
      0 - mobility * (2 * A + 2 * (-A / dot q q) * dot q q) := by
    have hA2 : (2:ℝ) * A = ∑ m, q m * ((right m - left m) * (1 / hx) + (up m - down m) * (1 / hy)) := by
      rw [hA, Finset.mul_sum]
      exact Finset.sum_congr rfl fun m _ => by ring
    rw [hA2]
    generalize -A / dot q q = l
    unfold dot projOp
    rw [Finset.mul_sum, ← Finset.sum_add_distrib, Finset.mul_sum, zero_sub, ← Finset.sum_neg_distrib]
    exact Finset.sum_congr rfl fun m _ => by ring
  rw [this, mul_assoc, div_mul_cancel₀ _ hb.ne']
  ring

theorem project_eq {n : ℕ} (q err : QVec n) (hq : q ≠ 0) :
    project q err = some (fun m => err m - q m * (dot q err / dot q q),
      fun m => q m / Real.sqrt (dot q q) - q m) := by
  have hb := dot_self_pos q hq
  have e : acc (fun m => q m ^ 2) = dot q q := by
    rw [acc_eq]; exact Finset.sum_congr rfl fun m _ => by ring
  unfold project
  simp only [e]
  rw [if_neg hb.ne', acc_eq]
  have hs : Real.sqrt (dot q q) * Real.sqrt (dot q q) = dot q q := Real.mul_self_sqrt hb.le
  have s0 : Real.sqrt (dot q q) ≠ 0 := (Real.sqrt_pos.mpr hb).ne'
  have f : ∑ m, q m * (1 / Real.sqrt (dot q q)) * err m = dot q err / Real.sqrt (dot q q) := by
    unfold dot; rw [Finset.sum_div]; exact Finset.sum_congr rfl fun m _ => by ring
  rw [f]
  congr 2
  · funext m
    have : dot q err / dot q q = 1 / Real.sqrt (dot q q) * (dot q err / Real.sqrt (dot q q)) := by
      rw [div_mul_div_comm, one_mul, hs]
    rw [this]; ring
  · funext m; ring

/-- **C42**: projection: the corrected orientation has unit length and the same direction; the new error is
orthogonal to the orientation and differs from the old one by a multiple of it. -/
theorem c42_projection {n : ℕ} (q err : QVec n) (hq : q ≠ 0) :
    ∃ err' corr, project q err = some (err', corr) ∧
      dot (q + corr) (q + corr) = 1 ∧ (∃ c : ℝ, 0 < c ∧ q + corr = c • q) ∧
      dot q err' = 0 ∧ ∃ k : ℝ, err - err' = k • q := by
  have hb := dot_self_pos q hq
  have s0 : 0 < Real.sqrt (dot q q) := Real.sqrt_pos.mpr hb
  have hs : Real.sqrt (dot q q) * Real.sqrt (dot q q) = dot q q := Real.mul_self_sqrt hb.le
  refine ⟨_, _, project_eq q err hq, ?_, ⟨1 / Real.sqrt (dot q q), by positivity, ?_⟩, ?_, dot q err / dot q q, ?_⟩
  · have : (q + fun m => q m / Real.sqrt (dot q q) - q m) = fun m => q m / Real.sqrt (dot q q) := by
      funext m; simp
    rw [this]
    generalize Real.sqrt (dot q q) = r at s0 hs
    have : dot (fun m => q m / r) (fun m => q m / r) = dot q q / (r * r) := by
      unfold dot
      rw [Finset.sum_div]
      exact Finset.sum_congr rfl fun m _ => by rw [div_mul_div_comm]
    rw [this, hs, div_self hb.ne']
  · funext m; simp [div_eq_mul_inv]; ring
  · have : dot q (fun m => err m - q m * (dot q err / dot q q)) = dot q err - dot q q * (dot q err / dot q q) := by
      generalize dot q err / dot q q = k
      unfold dot
      rw [Finset.sum_mul, ← Finset.sum_sub_distrib]
      exact Finset.sum_congr rfl fun m _ => by ring
    rw [this, mul_div_cancel₀ _ hb.ne', sub_self]
  · funext m; simp; ring

/-- **C42**: an orientation of unit length is left unchanged, and a tangent error too. -/
theorem c42_projection_fixes {n : ℕ} (q err : QVec n) (hq : dot q q = 1) :
    ∃ err', project q err = some (err', 0) ∧ (dot q err = 0 → err' = err) := by
  have h0 : q ≠ 0 := fun h => by rw [(dot_self_eq_zero q).mpr h] at hq; norm_num at hq
  refine ⟨fun m => err m - q m * dot q err, ?_, fun h => by funext m; simp [h]⟩
  rw [project_eq q err h0, hq, Real.sqrt_one]
  congr 2
  · funext m; rw [div_one]
  · funext m; simp

/-- **C42**: a zero orientation is the only one that cannot be projected (division by zero). -/
theorem c42_projection_defined_iff {n : ℕ} (q err : QVec n) : project q err = none ↔ q = 0 := by
  constructor
  · intro h
    by_contra hq
    rw [project_eq q err hq] at h
    exact absurd h (by simp)
  · intro h
    have e : acc (fun m => q m ^ 2) = 0 := by rw [acc_eq, h]; simp
    unfold project
    simp only [e, if_true]

end AMPE.OrientSolve.Props
