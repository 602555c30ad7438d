import Verif.Model.IntegratorNorm
import Verif.Props.ScalarDiag
import Mathlib.Tactic.FieldSimp
import Mathlib.Tactic.Positivity
import Mathlib.Tactic.Linarith

/-! # C126: the accuracy asked for is applied in one norm, whatever the mesh and the unit of length -/

namespace AMPE.IntegratorNorm.Props

open AMPE.Weights AMPE.Weights.Props AMPE.ScalarDiag AMPE.ScalarDiag.Props AMPE.IntegratorNorm

variable {D n : ℕ}

/-! ## Specification -/

/-- Values agree in every cell that is not covered by the next finer level. -/
def AgreeVisible (f g : Comp D) : List (Level D) → Prop
  | [] => True
  | [l] => ∀ c ∈ Level.cells l, f l c = g l c
  | l :: next :: rest =>
    (∀ c ∈ Level.cells l, (∀ x ∈ Level.cells next, (fun d => x d / ((next.ratio d / l.ratio d : ℕ) : ℤ)) ≠ c) → f l c = g l c) ∧
      AgreeVisible f g (next :: rest)

/-- A field given on level zero, copied to all finer cells. -/
def copied (g : Cell D → ℝ) : Comp D := fun l c => g fun d => c d / (l.ratio d : ℤ)

/-- Root mean square over the domain. -/
noncomputable def rms (dx0 : Fin D → ℝ) (levels : List (Level D)) (f : Comp D) : ℝ :=
  Real.sqrt (integral dx0 (fun l c => f l c ^ 2) levels / totalWeight dx0 levels)

/-! ## Tools -/

theorem levelSum_mul (l : Level D) (w : Box D → Cell D → ℝ) (a : ℝ) : levelSum l (fun b c => a * w b c) = a * levelSum l w := by
  have := levelSum_lin l w (fun _ _ => 0) a 0
  simp only [zero_mul, add_zero] at this
  exact this

theorem integral_mul (dx0 : Fin D → ℝ) (f : Comp D) (a : ℝ) (levels : List (Level D)) :
    integral dx0 (fun l c => a * f l c) levels = a * integral dx0 f levels := by
  have e := integral_lin dx0 f (fun _ _ => 0) a 0 levels
  simp only [zero_mul, add_zero] at e
  exact e

theorem cellVol_scale (dx0 : Fin D → ℝ) (a : ℝ) (l : Level D) : cellVol (fun d => a * dx0 d) l = a ^ D * cellVol dx0 l := by
  unfold cellVol
  have : ∀ d : Fin D, a * dx0 d / (l.ratio d : ℝ) = a * (dx0 d / l.ratio d) := fun d => by ring
  simp only [this]
  rw [Finset.prod_mul_distrib, Finset.prod_const, Finset.card_univ, Fintype.card_fin]

theorem zeroOut_scale (finer : List (Box D)) (b : Box D) (a : ℝ) (w : Cell D → ℝ) (c : Cell D) :
    zeroOut finer b (fun x => a * w x) c = a * zeroOut finer b w c := by
  unfold zeroOut
  induction finer generalizing w with
  | nil => rfl
  | cons x L ih =>
    rw [List.foldl_cons, List.foldl_cons]
    have e : (fun c => if c ∈ x.cells ∩ b.cells then (0 : ℝ) else a * w c) =
        fun c => a * (if c ∈ x.cells ∩ b.cells then 0 else w c) := by
      funext c; split_ifs <;> simp
    rw [e]
    exact ih _

theorem integral_scale (dx0 : Fin D → ℝ) (a : ℝ) (f : Comp D) (levels : List (Level D)) :
    integral (fun d => a * dx0 d) f levels = a ^ D * integral dx0 f levels := by
  induction levels with
  | nil => simp [integral]
  | cons l rest ih =>
    cases rest with
    | nil =>
      unfold integral
      rw [← levelSum_mul]
      exact levelSum_congr _ _ _ fun _ _ => by rw [cellVol_scale]; ring
    | cons next rest =>
      unfold integral
      rw [ih, mul_add, ← levelSum_mul]
      congr 1
      refine levelSum_congr _ _ _ fun b c => ?_
      simp only [cellVol_scale]
      rw [zeroOut_scale]; ring

theorem total_scale (dx0 : Fin D → ℝ) (a : ℝ) (levels : List (Level D)) :
    totalWeight (fun d => a * dx0 d) levels = a ^ D * totalWeight dx0 levels := by
  rw [total_eq_integral, total_eq_integral, integral_scale]

theorem integral_nonneg' (dx0 : Fin D → ℝ) (hdx : ∀ d, 0 < dx0 d) (f : Comp D) (hf : ∀ l c, 0 ≤ f l c) (levels : List (Level D)) :
    0 ≤ integral dx0 f levels := by
  have := integral_mono dx0 hdx (fun _ _ => 0) f levels fun l _ c _ => hf l c
  rw [integral_const, zero_mul] at this
  exact this

theorem dot_self (dx0 : Fin D → ℝ) (levels : List (Level D)) (w x : Vec D n) :
    dot dx0 levels (prod w x) (prod w x) = ∑ s, integral dx0 (fun l c => (w s l c * x s l c) ^ 2) levels := by
  unfold dot prod
  simp only [pow_two]

theorem dot_one (dx0 : Fin D → ℝ) (levels : List (Level D)) :
    dot dx0 levels (const 1 : Vec D n) (const 1) = ∑ _s : Fin n, totalWeight dx0 levels := by
  unfold dot const
  simp only [mul_one, total_eq_integral]

theorem sum_total (dx0 : Fin D → ℝ) (levels : List (Level D)) : ∑ _s : Fin n, totalWeight dx0 levels = n * totalWeight dx0 levels := by
  rw [Finset.sum_const, Finset.card_univ, Fintype.card_fin, nsmul_eq_mul]

/-! ## Theorems -/

/-- **C126**: the Krylov solver stops exactly when the residual, measured in the norm of the step test, is at most `eps`: same
norm for both, whatever the number of cells, the size of the domain, the number of fields. -/
theorem c126_krylov_same_norm (eps : ℝ) (dx0 : Fin D → ℝ) (levels : List (Level D)) (hV : 0 < totalWeight dx0 levels) (hn : 0 < n)
    (w r : Vec D n) : krylovStops eps dx0 levels w r ↔ wrms dx0 levels r w ≤ eps := by
  unfold krylovStops delta normFactor wrms
  rw [dot_self, dot_one]
  have hp : 0 < ∑ _s : Fin n, totalWeight dx0 levels := by rw [sum_total]; positivity
  rw [div_le_iff₀ (Real.sqrt_pos.2 hp)]

/-- **C126**: neither the step test nor the stopping test changes when the unit of length changes. -/
theorem c126_units (dx0 : Fin D → ℝ) (levels : List (Level D)) (a : ℝ) (ha : 0 < a) (x w : Vec D n) :
    wrms (fun d => a * dx0 d) levels x w = wrms dx0 levels x w := by
  unfold wrms
  simp only [integral_scale, total_scale, ← Finset.mul_sum]
  have hp : 0 < a ^ D := pow_pos ha D
  rw [Real.sqrt_mul hp.le, Real.sqrt_mul hp.le, mul_div_mul_left _ _ (Real.sqrt_pos.2 hp).ne']

theorem c126_krylov_units (eps : ℝ) (dx0 : Fin D → ℝ) (levels : List (Level D)) (hV : 0 < totalWeight dx0 levels) (hn : 0 < n)
    (a : ℝ) (ha : 0 < a) (w r : Vec D n) :
    krylovStops eps (fun d => a * dx0 d) levels w r ↔ krylovStops eps dx0 levels w r := by
  rw [c126_krylov_same_norm eps dx0 levels hV hn,
    c126_krylov_same_norm eps _ levels (by rw [total_scale]; positivity) hn, c126_units dx0 levels a ha]

theorem integral_visible (dx0 : Fin D → ℝ) (f g : Comp D) (l : Level D) (rest : List (Level D)) (h : Nested (l :: rest))
    (hfg : AgreeVisible f g (l :: rest)) : integral dx0 f (l :: rest) = integral dx0 g (l :: rest) := by
  induction rest generalizing l with
  | nil =>
    unfold integral levelSum
    congr 1
    refine List.map_congr_left fun b hb => Finset.sum_congr rfl fun c hc => ?_
    beta_reduce
    rw [hfg c ((mem_levelCells l c).2 ⟨b, hb, hc⟩)]
  | cons next rest ih =>
    obtain ⟨⟨hl, hp⟩, ⟨rho, h1, h2, h3⟩, hn⟩ := h
    obtain ⟨h4, h5⟩ := hfg
    unfold integral
    rw [ih next hn h5, coarsenRatio_eq l next hl rho h1]
    congr 1
    unfold levelSum
    congr 1
    refine List.map_congr_left fun b hb => Finset.sum_congr rfl fun c hc => ?_
    beta_reduce
    rw [zeroOut_eq _ _ _ _ hc]
    simp only [covered_iff rho (fun d => (h1 d).1) next (fun b hb d => (h2 b hb d).1) c]
    split_ifs with hcov
    · ring
    · rw [h4 c ((mem_levelCells l c).2 ⟨b, hb, hc⟩) fun x hx e => hcov ?_]
      unfold covered
      rw [Finset.mem_image]
      refine ⟨x, hx, ?_⟩
      rw [← e]
      funext d
      simp only [parent]
      rw [(h1 d).2, Nat.mul_div_cancel_left _ (hl d)]

/-- **C126**: what a vector holds in cells covered by a finer level has no influence on dot products and norms. -/
theorem c126_covered_cells (dx0 : Fin D → ℝ) (l : Level D) (rest : List (Level D)) (h : Nested (l :: rest)) (x x' w w' : Vec D n)
    (hx : ∀ s, AgreeVisible (x s) (x' s) (l :: rest)) (hw : ∀ s, AgreeVisible (w s) (w' s) (l :: rest)) :
    dot dx0 (l :: rest) x w = dot dx0 (l :: rest) x' w' ∧ wrms dx0 (l :: rest) x w = wrms dx0 (l :: rest) x' w' := by
  have key : ∀ (F : ℝ → ℝ → ℝ) (f f' g g' : Comp D) (L : List (Level D)), AgreeVisible f f' L → AgreeVisible g g' L →
      AgreeVisible (fun l c => F (f l c) (g l c)) (fun l c => F (f' l c) (g' l c)) L := by
    intro F f f' g g' L
    induction L with
    | nil => intro _ _; trivial
    | cons l rest ih =>
      cases rest with
      | nil => intro h1 h2 c hc; simp only [h1 c hc, h2 c hc]
      | cons next rest =>
        intro h1 h2
        exact ⟨fun c hc hv => by simp only [h1.1 c hc hv, h2.1 c hc hv], ih h1.2 h2.2⟩
  constructor
  · unfold dot
    exact Finset.sum_congr rfl fun s _ => integral_visible dx0 _ _ l rest h (key (fun a b => a * b) _ _ _ _ _ (hx s) (hw s))
  · unfold wrms
    congr 2
    exact Finset.sum_congr rfl fun s _ => integral_visible dx0 _ _ l rest h (key (fun a b => (b * a) ^ 2) _ _ _ _ _ (hx s) (hw s))

/-- **C126**: refining without changing the fields does not change the norm: for fields resolved on level zero, any legal
hierarchy gives the value of the unrefined mesh. -/
theorem c126_refinement (dx0 : Fin D → ℝ) (l : Level D) (rest : List (Level D)) (h : Nested (l :: rest)) (x w : Fin n → Cell D → ℝ) :
    wrms dx0 (l :: rest) (fun s => copied (x s)) (fun s => copied (w s)) =
      wrms dx0 [l] (fun s => copied (x s)) (fun s => copied (w s)) := by
  have h1 : Nested [l] := by
    cases rest with
    | nil => exact h
    | cons next rest => exact h.1
  have e : ∀ g : Cell D → ℝ, integral dx0 (copied g) (l :: rest) = integral dx0 (copied g) [l] := fun g =>
    (c39_integral dx0 g l rest h).trans (c39_integral dx0 g l [] h1).symm
  have e' : ∀ s, integral dx0 (fun l c => (copied (w s) l c * copied (x s) l c) ^ 2) (l :: rest) =
      integral dx0 (fun l c => (copied (w s) l c * copied (x s) l c) ^ 2) [l] := fun s => e fun c => (w s c * x s c) ^ 2
  have et : totalWeight dx0 (l :: rest) = totalWeight dx0 [l] := by
    rw [total_eq_integral, total_eq_integral]; exact e fun _ => 1
  unfold wrms
  simp only [e', et]

/-- **C126**: a step that passes has, field by field, a root-mean-square error of at most `√n (rtol M + atol)`, `M` bounding the
field and `n` the number of entries per cell. -/
theorem c126_error_per_field (dx0 : Fin D → ℝ) (hdx : ∀ d, 0 < dx0 d) (levels : List (Level D)) (hV : 0 < totalWeight dx0 levels)
    (rtol atol : ℝ) (hr : 0 ≤ rtol) (ha : 0 < atol) (y err : Vec D n) (h : accepts dx0 levels rtol atol y err)
    (s : Fin n) (M : ℝ) (hM : ∀ l ∈ levels, ∀ c ∈ Level.cells l, |y s l c| ≤ M) (hM0 : 0 ≤ M) :
    rms dx0 levels (err s) ≤ Real.sqrt n * (rtol * M + atol) := by
  have hn : (0 : ℝ) < n := by
    have := s.pos
    exact_mod_cast this
  have hB : 0 < rtol * M + atol := by positivity
  unfold accepts wrms at h
  rw [div_le_one (Real.sqrt_pos.2 (by rw [sum_total]; positivity)), sum_total] at h
  have hsum : 0 ≤ ∑ s, integral dx0 (fun l c => (errorWeights rtol atol y s l c * err s l c) ^ 2) levels :=
    Finset.sum_nonneg fun s _ => integral_nonneg' dx0 hdx _ (fun _ _ => sq_nonneg _) levels
  have h2 := (Real.sqrt_le_sqrt_iff (by positivity : (0 : ℝ) ≤ n * totalWeight dx0 levels)).1 h
  have h3 : integral dx0 (fun l c => (errorWeights rtol atol y s l c * err s l c) ^ 2) levels ≤ n * totalWeight dx0 levels :=
    (Finset.single_le_sum (f := fun s => integral dx0 (fun l c => (errorWeights rtol atol y s l c * err s l c) ^ 2) levels)
      (fun s _ => integral_nonneg' dx0 hdx _ (fun _ _ => sq_nonneg _) levels) (Finset.mem_univ s)).trans h2
  have h4 : integral dx0 (fun l c => err s l c ^ 2) levels ≤
      (rtol * M + atol) ^ 2 * integral dx0 (fun l c => (errorWeights rtol atol y s l c * err s l c) ^ 2) levels := by
    rw [← integral_mul]
    refine integral_mono dx0 hdx _ _ levels fun l hl c hc => ?_
    have hy := hM l hl c hc
    have hb : 0 < rtol * |y s l c| + atol := by positivity
    have hle : rtol * |y s l c| + atol ≤ rtol * M + atol := by
      have := mul_le_mul_of_nonneg_left hy hr
      linarith
    unfold errorWeights
    rw [mul_pow, ← mul_assoc, ← mul_pow]
    have h1 : 1 ≤ (rtol * M + atol) * (1 / (rtol * |y s l c| + atol)) := by
      rw [mul_one_div, le_div_iff₀ hb, one_mul]; exact hle
    calc err s l c ^ 2 = 1 ^ 2 * err s l c ^ 2 := by ring
      _ ≤ _ := mul_le_mul_of_nonneg_right (pow_le_pow_left₀ zero_le_one h1 2) (sq_nonneg _)
  unfold rms
  rw [← Real.sqrt_sq hB.le, ← Real.sqrt_mul hn.le]
  refine Real.sqrt_le_sqrt ?_
  rw [div_le_iff₀ hV]
  calc _ ≤ _ := h4
    _ ≤ (rtol * M + atol) ^ 2 * (n * totalWeight dx0 levels) := mul_le_mul_of_nonneg_left h3 (sq_nonneg _)
    _ = _ := by ring

/-- **C126**, what is lost: the tolerance is not one per cell.  An error `e` in a single level-zero cell (refined or not) of one field
passes exactly when `|e|` is at most the tolerance there times the root of the number of entries that many cells of this size would
have: on a mesh of a million cells a thousand times the tolerance. -/
theorem c126_violation_single_cell (dx0 : Fin D → ℝ) (hdx : ∀ d, 0 < dx0 d) (l : Level D) (rest : List (Level D))
    (h : Nested (l :: rest)) (hr1 : ∀ d, l.ratio d = 1) (c0 : Cell D) (hc : c0 ∈ Level.cells l)
    (rtol atol : ℝ) (hr : 0 ≤ rtol) (ha : 0 < atol) (y : Vec D n) (s0 : Fin n) (y0 e : ℝ) (hy : ∀ l c, y s0 l c = y0) :
    accepts dx0 (l :: rest) rtol atol y
        (fun s l c => if s = s0 then copied (fun c => if c = c0 then e else 0) l c else 0) ↔
      |e| ≤ Real.sqrt (n * totalWeight dx0 (l :: rest) / ∏ d, dx0 d) * (rtol * |y0| + atol) := by
  have hv : 0 < ∏ d, dx0 d := Finset.prod_pos fun d _ => hdx d
  have hn : (0 : ℝ) < n := by
    have := s0.pos
    exact_mod_cast this
  have hb : 0 < rtol * |y0| + atol := by positivity
  have hone := c39_each_cell_once dx0 l rest h hr1 c0 hc
  have hVge : ∏ d, dx0 d ≤ totalWeight dx0 (l :: rest) := by
    rw [← hone, total_eq_integral]
    refine integral_mono dx0 hdx _ _ _ fun l _ c _ => ?_
    beta_reduce
    split_ifs <;> norm_num
  have hV : 0 < totalWeight dx0 (l :: rest) := hv.trans_le hVge
  have hs : ∑ s, integral dx0 (fun l c => (errorWeights rtol atol y s l c *
      (if s = s0 then copied (fun c => if c = c0 then e else 0) l c else 0)) ^ 2) (l :: rest) =
      (e / (rtol * |y0| + atol)) ^ 2 * ∏ d, dx0 d := by
    rw [Finset.sum_eq_single s0]
    · have ei : (fun (l : Level D) (c : Cell D) => (errorWeights rtol atol y s0 l c *
          (if s0 = s0 then copied (fun c => if c = c0 then e else 0) l c else 0)) ^ 2) =
          fun l c => (e / (rtol * |y0| + atol)) ^ 2 * (if parent l.ratio c = c0 then 1 else 0) + 0 * (0 : ℝ) := by
        funext l c
        unfold errorWeights copied parent
        rw [hy, if_pos rfl]
        beta_reduce
        by_cases hh : (fun d => c d / (l.ratio d : ℤ)) = c0
        · rw [if_pos hh, if_pos hh]; ring
        · rw [if_neg hh, if_neg hh]; ring
      rw [ei, integral_lin dx0 (fun l c => if parent l.ratio c = c0 then (1 : ℝ) else 0) (fun _ _ => 0), hone]
      ring
    · intro s _ hss
      have ei : (fun (l : Level D) (c : Cell D) => (errorWeights rtol atol y s l c *
          (if s = s0 then copied (fun c => if c = c0 then e else 0) l c else 0)) ^ 2) = fun _ _ => 0 := by
        funext l c
        rw [if_neg hss]; ring
      rw [ei, integral_const, zero_mul]
    · intro hcon
      exact absurd (Finset.mem_univ s0) hcon
  unfold accepts wrms
  rw [hs, sum_total, div_le_one (Real.sqrt_pos.2 (by positivity)), Real.sqrt_le_sqrt_iff (by positivity)]
  have e1 : (e / (rtol * |y0| + atol)) ^ 2 * ∏ d, dx0 d = |e| ^ 2 / (rtol * |y0| + atol) ^ 2 * ∏ d, dx0 d := by
    rw [div_pow, sq_abs]
  rw [e1, ← Real.sqrt_sq hb.le, ← Real.sqrt_mul (by positivity), Real.sqrt_sq hb.le, Real.le_sqrt (abs_nonneg e) (by positivity),
    ← le_div_iff₀ hv, div_le_iff₀ (by positivity)]

/-! ### The tolerance handed to the preconditioner -/

theorem plainSum_const (a : ℝ) (levels : List (Level D)) :
    plainSum (fun _ _ => a) levels = a * plainSum (fun _ _ => 1) levels := by
  unfold plainSum
  induction levels with
  | nil => simp
  | cons l rest ih =>
    rw [List.map_cons, List.sum_cons, ih, List.map_cons, List.sum_cons, mul_add, ← levelSum_mul]
    simp only [mul_one]

theorem facNorm_const {m : ℕ} (hm : 0 < m) (levels : List (Level D)) (hN : 0 < plainSum (fun _ _ => 1) levels) (rho : ℝ) :
    facNorm levels (const rho : Vec D m) = |rho| := by
  unfold facNorm const
  rw [plainSum_const]
  simp only [← Finset.mul_sum]
  have : 0 < ∑ _s : Fin m, plainSum (fun (_ : Level D) _ => 1) levels := by
    rw [Finset.sum_const, Finset.card_univ, Fintype.card_fin, nsmul_eq_mul]; positivity
  rw [mul_div_cancel_right₀ _ this.ne', Real.sqrt_sq_eq_abs]

theorem delta_eq (eps : ℝ) (dx0 : Fin D → ℝ) (levels : List (Level D)) :
    delta n eps dx0 levels = eps * Real.sqrt (n * totalWeight dx0 levels) := by
  unfold delta normFactor
  rw [dot_one, sum_total]

/-- **C126 fails for the block solves**: the tolerance CVODE hands over refers to the norm with control volumes and error weights,
the multigrid solver compares it with the plain root mean square over all cells.  For a residual `rho` in all entries and error
weights `w`: CVODE asks for `|rho| w ≤ eps`, the solver stops at `|rho| ≤ eps √(n V)`; the two agree for all residuals only if
`w √(n V) = 1`. -/
theorem c126_violation_precond (eps : ℝ) (heps : 0 < eps) (dx0 : Fin D → ℝ) (levels : List (Level D))
    (hV : 0 < totalWeight dx0 levels) (hN : 0 < plainSum (fun _ _ => 1) levels) (hn : 0 < n) (w : ℝ) (hw : 0 < w) :
    (∀ rho, precondContract (delta n eps dx0 levels) dx0 levels (const w : Vec D n) (const rho) ↔ |rho| * w ≤ eps) ∧
    (∀ (m : ℕ), 0 < m → ∀ rho, facStops (delta n eps dx0 levels) levels (const rho : Vec D m) ↔
      |rho| ≤ eps * Real.sqrt (n * totalWeight dx0 levels)) ∧
    ((∀ rho, facStops (delta n eps dx0 levels) levels (const rho : Vec D 1) ↔
      precondContract (delta n eps dx0 levels) dx0 levels (const w : Vec D n) (const rho)) ↔
      w * Real.sqrt (n * totalWeight dx0 levels) = 1) := by
  have hnV : 0 < (n : ℝ) * totalWeight dx0 levels := by positivity
  have hS : 0 < Real.sqrt (n * totalWeight dx0 levels) := Real.sqrt_pos.2 hnV
  have hA : ∀ rho, precondContract (delta n eps dx0 levels) dx0 levels (const w : Vec D n) (const rho) ↔ |rho| * w ≤ eps := by
    intro rho
    unfold precondContract
    rw [dot_self, delta_eq]
    have : ∑ s : Fin n, integral dx0 (fun l c => ((const w : Vec D n) s l c * (const rho : Vec D n) s l c) ^ 2) levels =
        (w * rho) ^ 2 * (n * totalWeight dx0 levels) := by
      unfold const
      simp only [integral_const]
      rw [Finset.sum_const, Finset.card_univ, Fintype.card_fin, nsmul_eq_mul]
      ring
    rw [this, Real.sqrt_mul (sq_nonneg _), Real.sqrt_sq_eq_abs, abs_mul, abs_of_pos hw, mul_le_mul_iff_of_pos_right hS,
      mul_comm]
  have hB : ∀ (m : ℕ), 0 < m → ∀ rho, facStops (delta n eps dx0 levels) levels (const rho : Vec D m) ↔
      |rho| ≤ eps * Real.sqrt (n * totalWeight dx0 levels) := by
    intro m hm rho
    unfold facStops
    rw [facNorm_const hm levels hN, delta_eq]
  refine ⟨hA, hB, ?_⟩
  constructor
  · intro h
    have h1 := (h (eps * Real.sqrt (n * totalWeight dx0 levels))).1 ((hB 1 one_pos _).2 (le_of_eq (abs_of_pos (by positivity))))
    rw [hA, abs_of_pos (by positivity)] at h1
    have h2 := (h (eps / w)).2 ((hA _).2 (le_of_eq (by rw [abs_of_pos (by positivity)]; field_simp)))
    rw [hB 1 one_pos, abs_of_pos (by positivity), div_le_iff₀ hw] at h2
    have h3 : Real.sqrt (n * totalWeight dx0 levels) * w ≤ 1 := by
      have : eps * (Real.sqrt (n * totalWeight dx0 levels) * w) ≤ eps * 1 := by linarith
      exact le_of_mul_le_mul_left this heps
    have h4 : 1 ≤ Real.sqrt (n * totalWeight dx0 levels) * w := by
      have : eps * 1 ≤ eps * (Real.sqrt (n * totalWeight dx0 levels) * w) := by linarith
      exact le_of_mul_le_mul_left this heps
    linarith
  · intro h rho
    rw [hA, hB 1 one_pos]
    constructor
    · intro h1
      calc |rho| * w ≤ eps * Real.sqrt (n * totalWeight dx0 levels) * w := mul_le_mul_of_nonneg_right h1 hw.le
        _ = eps * (w * Real.sqrt (n * totalWeight dx0 levels)) := by ring
        _ = eps := by rw [h, mul_one]
    · intro h1
      calc |rho| = |rho| * (w * Real.sqrt (n * totalWeight dx0 levels)) := by rw [h, mul_one]
        _ = |rho| * w * Real.sqrt (n * totalWeight dx0 levels) := by ring
        _ ≤ _ := mul_le_mul_of_nonneg_right h1 hS.le

/-- **C126 fails for the block solves**: whatever the residual, there is a unit of length in which the multigrid solver stops with
it and one in which it goes on, while the norm in which CVODE measures the step does not depend on the unit. -/
theorem c126_violation_precond_units {m : ℕ} (hD : D ≠ 0) (eps : ℝ) (heps : 0 < eps) (dx0 : Fin D → ℝ) (levels : List (Level D))
    (hV : 0 < totalWeight dx0 levels) (hn : 0 < n) (r : Vec D m) (hr : 0 < facNorm levels r) :
    (∃ a > 0, facStops (delta n eps (fun d => a * dx0 d) levels) levels r) ∧
      ∃ a > 0, ¬facStops (delta n eps (fun d => a * dx0 d) levels) levels r := by
  have hnV : 0 < (n : ℝ) * totalWeight dx0 levels := by positivity
  have hS : 0 < Real.sqrt (n * totalWeight dx0 levels) := Real.sqrt_pos.2 hnV
  have hd : ∀ a : ℝ, 0 < a → delta n eps (fun d => a ^ 2 * dx0 d) levels =
      a ^ D * (eps * Real.sqrt (n * totalWeight dx0 levels)) := by
    intro a ha
    rw [delta_eq, total_scale]
    have : (n : ℝ) * ((a ^ 2) ^ D * totalWeight dx0 levels) = (a ^ D) ^ 2 * (n * totalWeight dx0 levels) := by ring
    rw [this, Real.sqrt_mul (sq_nonneg _), Real.sqrt_sq (by positivity)]
    ring
  set F := facNorm levels r
  set E := eps * Real.sqrt (n * totalWeight dx0 levels)
  have hE : 0 < E := by positivity
  constructor
  · refine ⟨(F / E + 1) ^ 2, by positivity, ?_⟩
    unfold facStops
    rw [hd _ (by positivity)]
    have h1 : F / E + 1 ≤ (F / E + 1) ^ D := le_self_pow₀ (by have : 0 < F / E := by positivity
                                                              linarith) hD
    calc F = F / E * E := by field_simp
      _ ≤ (F / E + 1) * E := by nlinarith
      _ ≤ _ := mul_le_mul_of_nonneg_right h1 hE.le
  · have hb : 0 < 1 / (E / F + 1) := by positivity
    have hb1 : 1 / (E / F + 1) ≤ 1 := by
      rw [div_le_one (by positivity)]
      have : 0 < E / F := by positivity
      linarith
    refine ⟨(1 / (E / F + 1)) ^ 2, by positivity, ?_⟩
    unfold facStops
    rw [hd _ hb, not_le]
    have h1 : (1 / (E / F + 1)) ^ D ≤ 1 / (E / F + 1) := pow_le_of_le_one hb.le hb1 hD
    calc (1 / (E / F + 1)) ^ D * E ≤ 1 / (E / F + 1) * E := mul_le_mul_of_nonneg_right h1 hE.le
      _ = E * F / (E + F) := by field_simp
      _ < F := by rw [div_lt_iff₀ (by positivity)]; nlinarith

/-- **C126, the part that holds**: when the multigrid solver stops, the norm CVODE asks about is bounded by the tolerance times a
factor that depends on the mesh and on the largest error weight: `wmax √(v m N)`, `v` the volume of the largest cell, `N` the number of
cells.  Missing for the full property: that this factor is one. -/
theorem c126_precond_partial (dx0 : Fin D → ℝ) (hdx : ∀ d, 0 < dx0 d) (levels : List (Level D))
    (hN : 0 < plainSum (fun _ _ => 1) levels) (hn : 0 < n) (v : ℝ) (hv : ∀ l ∈ levels, cellVol dx0 l ≤ v) (hv0 : 0 ≤ v)
    (w r : Vec D n) (wmax : ℝ) (hw : ∀ s l c, |w s l c| ≤ wmax) (hw0 : 0 ≤ wmax) (del : ℝ) (h : facStops del levels r) :
    precondContract (wmax * Real.sqrt (v * (n * plainSum (fun _ _ => 1) levels)) * del) dx0 levels w r := by
  have zle : ∀ (finer : List (Box D)) (b : Box D) (c : Cell D) (x : ℝ), 0 ≤ x → zeroOut finer b (fun _ => x) c ≤ x := by
    intro finer b c x hx
    have : ∀ (w : Cell D → ℝ), (∀ c, w c ≤ x) → ∀ c, zeroOut finer b w c ≤ x := by
      unfold zeroOut
      induction finer with
      | nil => intro w hw c; exact hw c
      | cons y L ih =>
        intro w hw c
        rw [List.foldl_cons]
        exact ih _ (fun c => by beta_reduce; split_ifs <;> [exact hx; exact hw c]) c
    exact this _ (fun _ => le_rfl) c
  have hint : ∀ (f : Comp D), (∀ l c, 0 ≤ f l c) → integral dx0 f levels ≤ v * plainSum f levels := by
    intro f hf
    unfold plainSum
    clear h hN
    induction levels with
    | nil => simp [integral]
    | cons l rest ih =>
      have hl := hv l (by simp)
      have ih' := ih fun l' hl' => hv l' (by simp [hl'])
      rw [List.map_cons, List.sum_cons, mul_add, ← levelSum_mul]
      cases rest with
      | nil =>
        unfold integral
        simp only [List.map_nil, List.sum_nil, mul_zero, add_zero]
        exact levelSum_mono _ _ _ fun b _ c _ => mul_le_mul_of_nonneg_right hl (hf l c)
      | cons next rest =>
        unfold integral
        refine add_le_add (levelSum_mono _ _ _ fun b _ c _ => mul_le_mul_of_nonneg_right ?_ (hf l c)) ih'
        exact (zle _ b c _ (cellVol_nonneg dx0 hdx l)).trans hl
  unfold facStops facNorm at h
  rw [Finset.sum_const, Finset.card_univ, Fintype.card_fin, nsmul_eq_mul] at h
  unfold precondContract
  rw [dot_self]
  set P := ∑ s, plainSum (fun l c => r s l c ^ 2) levels
  set N := (n : ℝ) * plainSum (fun _ _ => 1) levels with hNdef
  have hNpos : 0 < N := by positivity
  have hdel : 0 ≤ del := (Real.sqrt_nonneg _).trans h
  have hP : P ≤ del ^ 2 * N := by
    have := (Real.sqrt_le_left hdel).1 h
    rwa [div_le_iff₀ hNpos] at this
  have h1 : ∑ s, integral dx0 (fun l c => (w s l c * r s l c) ^ 2) levels ≤ wmax ^ 2 * (v * P) := by
    rw [Finset.mul_sum, Finset.mul_sum]
    refine Finset.sum_le_sum fun s _ => ?_
    calc integral dx0 (fun l c => (w s l c * r s l c) ^ 2) levels
        ≤ integral dx0 (fun l c => wmax ^ 2 * r s l c ^ 2) levels := by
          refine integral_mono dx0 hdx _ _ levels fun l _ c _ => ?_
          rw [mul_pow]
          refine mul_le_mul_of_nonneg_right ?_ (sq_nonneg _)
          rw [← sq_abs (w s l c)]
          exact pow_le_pow_left₀ (abs_nonneg _) (hw s l c) 2
      _ = wmax ^ 2 * integral dx0 (fun l c => r s l c ^ 2) levels := integral_mul _ _ _ _
      _ ≤ _ := mul_le_mul_of_nonneg_left (hint _ fun _ _ => sq_nonneg _) (sq_nonneg _)
  have h2 : wmax ^ 2 * (v * P) ≤ (wmax * Real.sqrt (v * N) * del) ^ 2 := by
    rw [mul_pow, mul_pow, Real.sq_sqrt (by positivity)]
    calc wmax ^ 2 * (v * P) ≤ wmax ^ 2 * (v * (del ^ 2 * N)) := by gcongr
      _ = _ := by ring
  exact Real.sqrt_le_iff.2 ⟨by positivity, h1.trans h2⟩

/-- **C126 fails for the block solves**: cells under finer patches count. On two levels with the same residual in all visible cells,
the value in covered cells alone decides whether the multigrid solver goes on. -/
theorem c126_violation_precond_covered (del : ℝ) (hdel : 0 ≤ del) (l next : Level D) (b : Box D) (hb : b ∈ l.boxes) (c : Cell D)
    (hc : c ∈ b.cells) (hcov : ∃ x ∈ Level.cells next, parent (coarsenRatio l next) x = c) (hne : l ≠ next) :
    ∃ r : Vec D 1, AgreeVisible (r 0) (fun _ _ => 0) [l, next] ∧ ¬facStops del [l, next] r := by
  have hN : 0 < plainSum (fun (_ : Level D) _ => 1) [l, next] := by
    unfold plainSum
    simp only [List.map_cons, List.map_nil, List.sum_cons, List.sum_nil, add_zero]
    have h1 : 1 ≤ levelSum l fun _ _ => 1 := by
      unfold levelSum
      refine le_trans ?_ (List.single_le_sum (fun x hx => ?_) _ (List.mem_map.2 ⟨b, hb, rfl⟩))
      · exact Finset.single_le_sum (f := fun _ => (1 : ℝ)) (fun _ _ => zero_le_one) hc
      · obtain ⟨b', _, rfl⟩ := List.mem_map.1 hx
        exact Finset.sum_nonneg fun _ _ => zero_le_one
    have h2 : 0 ≤ levelSum next fun _ _ => 1 := by
      unfold levelSum
      refine List.sum_nonneg fun x hx => ?_
      obtain ⟨b', _, rfl⟩ := List.mem_map.1 hx
      exact Finset.sum_nonneg fun _ _ => zero_le_one
    linarith
  set N := plainSum (fun (_ : Level D) _ => 1) [l, next]
  classical
  refine ⟨fun _ l' c' => if l' = l ∧ c' = c then Real.sqrt N * (del + 1) else 0, ⟨?_, ?_⟩, ?_⟩
  · intro c' _ hv
    beta_reduce
    rw [if_neg]
    rintro ⟨_, rfl⟩
    obtain ⟨x, hx, e⟩ := hcov
    exact hv x hx e
  · intro c' _
    beta_reduce
    rw [if_neg fun h => hne h.1.symm]
  · unfold facStops facNorm
    simp only [Finset.univ_unique, Finset.sum_singleton]
    rw [not_le]
    have h1 : N * (del + 1) ^ 2 ≤ plainSum (fun l' c' => (if l' = l ∧ c' = c then Real.sqrt N * (del + 1) else 0) ^ 2) [l, next] := by
      unfold plainSum
      simp only [List.map_cons, List.map_nil, List.sum_cons, List.sum_nil, add_zero]
      have h2 : 0 ≤ levelSum next fun _ c' => (if next = l ∧ c' = c then Real.sqrt N * (del + 1) else 0) ^ 2 := by
        unfold levelSum
        refine List.sum_nonneg fun x hx => ?_
        obtain ⟨b', _, rfl⟩ := List.mem_map.1 hx
        exact Finset.sum_nonneg fun _ _ => sq_nonneg _
      have h3 : N * (del + 1) ^ 2 ≤ levelSum l fun _ c' => (if l = l ∧ c' = c then Real.sqrt N * (del + 1) else 0) ^ 2 := by
        unfold levelSum
        refine le_trans ?_ (List.single_le_sum (fun x hx => ?_) _ (List.mem_map.2 ⟨b, hb, rfl⟩))
        · refine le_trans ?_ (Finset.single_le_sum (f := fun c' => (if l = l ∧ c' = c then Real.sqrt N * (del + 1) else 0) ^ 2)
            (fun _ _ => sq_nonneg _) hc)
          beta_reduce
          rw [if_pos ⟨rfl, rfl⟩, mul_pow, Real.sq_sqrt hN.le]
        · obtain ⟨b', _, rfl⟩ := List.mem_map.1 hx
          exact Finset.sum_nonneg fun _ _ => sq_nonneg _
      simp only [true_and] at h3 ⊢
      linarith
    rw [Real.lt_sqrt hdel, lt_div_iff₀ hN]
    nlinarith

/-! ## The hypotheses are met -/

/-- One level of four cells in one dimension; two fields. -/
example : Nested [(⟨fun _ => 1, [⟨fun _ => 0, fun _ => 3⟩]⟩ : Level 1)] ∧
    totalWeight (fun _ => (1 : ℝ) / 2) [(⟨fun _ => 1, [⟨fun _ => 0, fun _ => 3⟩]⟩ : Level 1)] = 2 ∧
    0 < plainSum (fun _ _ => 1) [(⟨fun _ => 1, [⟨fun _ => 0, fun _ => 3⟩]⟩ : Level 1)] := by
  have hc : (Finset.Icc (fun _ => 0) (fun _ => 3) : Finset (Cell 1)).card = 4 := by
    rw [Pi.card_Icc]; simp
  refine ⟨⟨by simp, by simp⟩, ?_, ?_⟩
  · unfold totalWeight levelSum cellVol Box.cells
    simp only [List.map_cons, List.map_nil, List.sum_cons, List.sum_nil, Finset.sum_const, hc]
    norm_num
  · unfold plainSum levelSum Box.cells
    simp only [List.map_cons, List.map_nil, List.sum_cons, List.sum_nil, Finset.sum_const, hc]
    norm_num

end AMPE.IntegratorNorm.Props
