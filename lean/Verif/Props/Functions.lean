import Verif.Proofs.Functions

/-!
# C10 - C13: interpolation functions, double wells, face averages
-/

namespace AMPE.Functions.Props

open AMPE.Functions Set

/-- Specification: the routine `f` never aborts and computes the function `F`. -/
def Computes (f : ℝ → Option ℝ) (F : ℝ → ℝ) : Prop := ∀ x, f x = some (F x)

/-- Specification: at `x` the routine `g` returns the derivative of what the routine `f` computes. -/
def ReportsDerivAt (g f : ℝ → Option ℝ) (x : ℝ) : Prop :=
  ∃ F d, Computes f F ∧ g x = some d ∧ HasDerivAt F d x

/-- Specification: at `x` the routine `f` computes something differentiable, but the routine `g`
returns a different number than the derivative. -/
def MisreportsDerivAt (g f : ℝ → Option ℝ) (x : ℝ) : Prop :=
  ∃ F d d', Computes f F ∧ g x = some d' ∧ HasDerivAt F d x ∧ d' ≠ d

/-- The kinds that are meant to interpolate between 0 and 1 (`c` is the constant 1). -/
def proper : List Char := ['q', 'p', 'h', 'w', 'l', 'm', '3', 's']

/-- The kinds whose argument is clamped on both sides. -/
def clamped : List Char := ['p', 'h', 'l', 'm']

/-- The kinds whose argument is clamped from below only. -/
def clampedBelow : List Char := ['q', 'w', '3']

/-- **C10**: exactly nine kinds are accepted, all others abort, for every argument. -/
theorem c10_supported_kinds (ty : Char) (phi : ℝ) :
    (interpFunc ty phi).isSome ↔ ty ∈ 'c' :: proper := by
  unfold interpFunc proper
  split_ifs <;> simp_all

/-- **C10**: a proper kind maps 0 to 0 and 1 to 1. -/
theorem c10_endpoints (ty : Char) (h : ty ∈ proper) :
    interpFunc ty 0 = some 0 ∧ interpFunc ty 1 = some 1 := by
  have := cosh_gamma.ne'
  simp only [proper, List.mem_cons, List.not_mem_nil, or_false] at h
  rcases h with rfl | rfl | rfl | rfl | rfl | rfl | rfl | rfl <;>
    simp [interpFunc, clamp, pos, this] <;> norm_num

theorem cosh_mono {x y : ℝ} (h0 : 0 ≤ x) (h : x ≤ y) : Real.cosh x ≤ Real.cosh y := by
  rw [Real.cosh_le_cosh, abs_of_nonneg h0, abs_of_nonneg (h0.trans h)]; exact h

theorem m_mono {x y : ℝ} (hx : 0 ≤ x) (hy : y ≤ 1) (h : x ≤ y) :
    x * x / (2 * x * (x - 1) + 1) ≤ y * y / (2 * y * (y - 1) + 1) := by
  rw [div_le_div_iff₀ (den_pos x) (den_pos y)]
  have hy0 : 0 ≤ y := hx.trans h
  have hx1 : x ≤ 1 := h.trans hy
  have h1 : x * (1 - y) ≤ y * (1 - x) := by nlinarith
  have h2 : (x * (1 - y)) * (x * (1 - y)) ≤ (y * (1 - x)) * (y * (1 - x)) :=
    mul_self_le_mul_self (mul_nonneg hx (by linarith)) h1
  nlinarith [h2]

/-- **C10**: a proper kind does not decrease on [0,1]. -/
theorem c10_monotone (ty : Char) (h : ty ∈ proper) (x y u v : ℝ) (hx : 0 ≤ x) (hy : y ≤ 1)
    (hxy : x ≤ y) (hu : interpFunc ty x = some u) (hv : interpFunc ty y = some v) : u ≤ v := by
  have hy0 : 0 ≤ y := hx.trans hxy
  have hx1 : x ≤ 1 := hxy.trans hy
  simp only [proper, List.mem_cons, List.not_mem_nil, or_false] at h
  rcases h with rfl | rfl | rfl | rfl | rfl | rfl | rfl | rfl <;>
    simp [interpFunc, pos_of_nonneg hx, pos_of_nonneg hy0, clamp_of_mem hx hx1, clamp_of_mem hy0 hy]
      at hu hv <;> subst hu hv
  · nlinarith
  · -- the difference factors with a sum of squares
    have hd : 0 ≤ y - x := by linarith
    have key : y * y * y * (10 - 15 * y + 6 * y * y) - x * x * x * (10 - 15 * x + 6 * x * x) =
        (y - x) * (10 * (x * x + x * y + y * y) - 15 * (x * x * x + x * x * y + x * y * y + y * y * y)
          + 6 * (x * x * x * x + x * x * x * y + x * x * y * y + x * y * y * y + y * y * y * y)) := by
      ring
    have hq : 0 ≤ 10 * (x * x + x * y + y * y) - 15 * (x * x * x + x * x * y + x * y * y + y * y * y)
          + 6 * (x * x * x * x + x * x * x * y + x * x * y * y + x * y * y * y + y * y * y * y) := by
      have e1 : 0 ≤ x * (1 - x) := mul_nonneg hx (by linarith)
      have e2 : 0 ≤ y * (1 - y) := mul_nonneg hy0 (by linarith)
      have e3 : 0 ≤ x * y * (1 - x) * (1 - y) :=
        mul_nonneg (mul_nonneg (mul_nonneg hx hy0) (by linarith)) (by linarith)
      nlinarith [mul_nonneg e1 e1, mul_nonneg e2 e2, e3, mul_nonneg e1 e2,
        sq_nonneg (x * (1 - x) - y * (1 - y)), mul_nonneg hx hy0,
        sq_nonneg ((x + y) * (1 - (x + y) / 2)), sq_nonneg (x - y), mul_nonneg (mul_nonneg hx hy0) e1,
        mul_nonneg (mul_nonneg hx hy0) e2, sq_nonneg ((x - y) * (x + y - 1))]
    nlinarith [mul_nonneg hd hq]
  · nlinarith [mul_nonneg (sub_nonneg.mpr hxy) (mul_nonneg hx (sub_nonneg.mpr hx1)),
      mul_nonneg (sub_nonneg.mpr hxy) (mul_nonneg hy0 (sub_nonneg.mpr hy)),
      mul_nonneg (sub_nonneg.mpr hxy) (mul_nonneg hx (sub_nonneg.mpr hy)),
      mul_nonneg (sub_nonneg.mpr hxy) (mul_nonneg hy0 (sub_nonneg.mpr hx1)),
      mul_nonneg (sub_nonneg.mpr hxy) (sq_nonneg (x - y))]
  · nlinarith [mul_nonneg (sub_nonneg.mpr hxy) (mul_nonneg hx (sub_nonneg.mpr hx1)),
      mul_nonneg (sub_nonneg.mpr hxy) (mul_nonneg hy0 (sub_nonneg.mpr hy)),
      mul_nonneg (sub_nonneg.mpr hxy) (mul_nonneg hx (sub_nonneg.mpr hy)),
      mul_nonneg (sub_nonneg.mpr hxy) (mul_nonneg hy0 (sub_nonneg.mpr hx1)),
      mul_nonneg (sub_nonneg.mpr hxy) hx, mul_nonneg (sub_nonneg.mpr hxy) hy0]
  · exact min_le_min le_rfl hxy
  · exact m_mono hx hy hxy
  · have := mul_le_mul hxy hxy hx hy0
    exact mul_le_mul this hxy hx (mul_nonneg hy0 hy0)
  · apply div_le_div_of_nonneg_right _ cosh_gamma.le
    apply Real.log_le_log (Real.cosh_pos _)
    apply cosh_mono
    · exact mul_nonneg (by norm_num [gamma]) hx
    · exact mul_le_mul_of_nonneg_left hxy (by norm_num [gamma])

/-- **C10**: a proper kind stays within [0,1] on [0,1]. -/
theorem c10_range (ty : Char) (h : ty ∈ proper) (x u : ℝ) (hx : 0 ≤ x) (hx1 : x ≤ 1)
    (hu : interpFunc ty x = some u) : 0 ≤ u ∧ u ≤ 1 :=
  ⟨c10_monotone ty h 0 x 0 u le_rfl hx1 hx (c10_endpoints ty h).1 hu,
   c10_monotone ty h x 1 u 1 hx le_rfl hx1 hu (c10_endpoints ty h).2⟩

/-- **C10**: the clamped kinds are constant on each side outside [0,1], so with `c10_range` they stay
in [0,1] for every real argument. -/
theorem c10_clamped_outside (ty : Char) (h : ty ∈ clamped) (x : ℝ) :
    (x ≤ 0 → interpFunc ty x = some 0) ∧ (1 ≤ x → interpFunc ty x = some 1) := by
  constructor
  · intro hx
    have e : interpFunc ty x = interpFunc ty 0 := by
      simp only [clamped, List.mem_cons, List.not_mem_nil, or_false] at h
      rcases h with rfl | rfl | rfl | rfl <;>
        simp [interpFunc, clamp_of_nonpos hx, pos_of_nonpos hx, clamp_of_nonpos le_rfl, pos_of_nonpos le_rfl]
    rw [e]; exact (c10_endpoints ty (by revert h; simp [clamped, proper]; tauto)).1
  · intro hx
    have e : interpFunc ty x = interpFunc ty 1 := by
      simp only [clamped, List.mem_cons, List.not_mem_nil, or_false] at h
      rcases h with rfl | rfl | rfl | rfl <;>
        simp [interpFunc, clamp_of_ge hx, clamp_of_ge le_rfl, pos_of_nonneg (zero_le_one.trans hx),
          pos_of_nonneg zero_le_one, hx]
    rw [e]; exact (c10_endpoints ty (by revert h; simp [clamped, proper]; tauto)).2

/-- **C10**: the kinds clamped from below vanish for non-positive arguments. -/
theorem c10_clamped_below (ty : Char) (h : ty ∈ clampedBelow) (x : ℝ) (hx : x ≤ 0) :
    interpFunc ty x = some 0 := by
  simp only [clampedBelow, List.mem_cons, List.not_mem_nil, or_false] at h
  rcases h with rfl | rfl | rfl <;> simp [interpFunc, pos_of_nonpos hx]

/-- **C10** (limit of the claim): kind `s` ignores its own clamp, so it is positive, and in fact even,
for negative arguments. -/
theorem c10_s_not_clamped (x : ℝ) (hx : x < 0) :
    ∃ u, interpFunc 's' x = some u ∧ interpFunc 's' (-x) = some u ∧ 0 < u := by
  refine ⟨_, rfl, ?_, ?_⟩
  · simp [interpFunc]
  · apply div_pos _ cosh_gamma
    apply Real.log_pos
    apply Real.one_lt_cosh.mpr
    have : gamma * x < 0 := mul_neg_of_pos_of_neg (by norm_num [gamma]) hx
    exact this.ne

/-! ## C11 -/

theorem computes_q : Computes (interpFunc 'q') (fun y => (fun z => z * z) (pos y)) := fun _ => rfl
theorem computes_p : Computes (interpFunc 'p')
    (fun y => (fun z => z * z * z * (10 - 15 * z + 6 * z * z)) (clamp y)) := fun _ => rfl
theorem computes_h : Computes (interpFunc 'h')
    (fun y => (fun z => z * z * (3 - 2 * z)) (clamp y)) := fun _ => rfl
theorem computes_w : Computes (interpFunc 'w')
    (fun y => (fun z => z * z * (2 - z)) (pos y)) := fun _ => rfl
theorem computes_l : Computes (interpFunc 'l') (fun y => min 1 (pos y)) := fun _ => rfl
theorem computes_m : Computes (interpFunc 'm')
    (fun y => (fun z => z * z / (2 * z * (z - 1) + 1)) (clamp y)) := fun _ => rfl
theorem computes_3 : Computes (interpFunc '3') (fun y => (fun z => z * z * z) (pos y)) := fun _ => rfl
theorem computes_s : Computes (interpFunc 's')
    (fun y => Real.log (Real.cosh (gamma * y)) / Real.log (Real.cosh gamma)) := fun _ => rfl
theorem computes_c : Computes (interpFunc 'c') (fun _ => 1) := fun _ => rfl

theorem deriv_q (x : ℝ) : HasDerivAt (fun z : ℝ => z * z) (2 * x) x := by
  have := (hasDerivAt_id' x).mul (hasDerivAt_id' x)
  exact this.congr_deriv (by ring)

theorem deriv_3 (x : ℝ) : HasDerivAt (fun z : ℝ => z * z * z) (3 * x * x) x := by
  have := (deriv_q x).mul (hasDerivAt_id' x)
  exact this.congr_deriv (by ring)

theorem deriv_s (x : ℝ) : HasDerivAt
    (fun y => Real.log (Real.cosh (gamma * y)) / Real.log (Real.cosh gamma))
    (gamma * Real.tanh (gamma * x) / Real.log (Real.cosh gamma)) x := by
  have h1 : HasDerivAt (fun y => gamma * y) gamma x := by
    simpa using (hasDerivAt_id' x).const_mul gamma
  have h2 := ((Real.hasDerivAt_cosh (gamma * x)).comp x h1).log (Real.cosh_pos _).ne'
  have h3 := h2.div_const (Real.log (Real.cosh gamma))
  refine h3.congr_deriv ?_
  rw [Real.tanh_eq_sinh_div_cosh]
  simp only [Function.comp]
  ring

/-- The full first-derivative claim fails for kinds `l` and `s`; these six kinds and the constant are
correct everywhere. -/
def derivGood : List Char := ['q', 'p', 'h', 'w', 'm', '3', 'c']

/-- **C11** (first derivatives): correct at every real argument for seven kinds, on (0,1) for `l` and
on [0,∞) for `s`.  Missing from the full claim: `l` outside [0,1] and `s` below 0, where the code is
wrong (`c11_violation_l`, `c11_violation_s`). -/
theorem c11_first_partial (ty : Char) (x : ℝ)
    (h : ty ∈ derivGood ∨ (ty = 'l' ∧ 0 < x ∧ x < 1) ∨ (ty = 's' ∧ 0 ≤ x)) :
    ReportsDerivAt (derivInterpFunc ty) (interpFunc ty) x := by
  rcases h with h | ⟨rfl, h0, h1⟩ | ⟨rfl, h0⟩
  · simp only [derivGood, List.mem_cons, List.not_mem_nil, or_false] at h
    rcases h with rfl | rfl | rfl | rfl | rfl | rfl | rfl
    · exact ⟨_, _, computes_q, rfl, hasDerivAt_pos (g := fun z => z * z) (g' := fun x => 2 * x) deriv_q (by simp) x⟩
    · refine ⟨_, _, computes_p, rfl, hasDerivAt_clamp
        (g := fun z => z * z * z * (10 - 15 * z + 6 * z * z)) (g' := fun x => 30 * x * x * (1 - x) * (1 - x)) ?_ (by simp) (by simp) x⟩
      intro y _
      have h1 : HasDerivAt (fun z : ℝ => 10 - 15 * z + 6 * z * z) (-15 + 12 * y) y := by
        have := (((hasDerivAt_id' y).const_mul 15).const_sub 10).add
          (((hasDerivAt_id' y).const_mul 6).mul (hasDerivAt_id' y))
        exact this.congr_deriv (by ring)
      exact ((deriv_3 y).mul h1).congr_deriv (by ring)
    · refine ⟨_, _, computes_h, rfl, hasDerivAt_clamp
        (g := fun z => z * z * (3 - 2 * z)) (g' := fun x => 6 * x * (1 - x)) ?_ (by simp) (by simp) x⟩
      intro y _
      have := (deriv_q y).mul (((hasDerivAt_id' y).const_mul 2).const_sub 3)
      exact this.congr_deriv (by ring)
    · refine ⟨_, _, computes_w, rfl, hasDerivAt_pos
        (g := fun z => z * z * (2 - z)) (g' := fun x => x * (4 - 3 * x)) ?_ (by simp) x⟩
      intro y
      have := (deriv_q y).mul ((hasDerivAt_id' y).const_sub 2)
      exact this.congr_deriv (by ring)
    · refine ⟨_, _, computes_m, rfl, hasDerivAt_clamp
        (g := fun z => z * z / (2 * z * (z - 1) + 1)) (g' := fun x => 2 * x * (1 - x) /
        ((2 * x * (x - 1) + 1) * (2 * x * (x - 1) + 1))) ?_ (by simp) (by simp) x⟩
      intro y _
      have hd : HasDerivAt (fun z : ℝ => 2 * z * (z - 1) + 1) (4 * y - 2) y := by
        have := ((((hasDerivAt_id' y).const_mul 2).mul ((hasDerivAt_id' y).sub_const 1)).add_const 1)
        exact this.congr_deriv (by ring)
      have hne := (den_pos y).ne'
      have := (deriv_q y).div hd hne
      refine this.congr_deriv ?_
      field_simp
      ring
    · exact ⟨_, _, computes_3, rfl, hasDerivAt_pos
        (g := fun z => z * z * z) (g' := fun x => 3 * x * x) deriv_3 (by simp) x⟩
    · exact ⟨_, _, computes_c, rfl, hasDerivAt_const _ _⟩
  · refine ⟨_, 1, computes_l, by simp [derivInterpFunc, h0], ?_⟩
    refine hasDerivAt_congr_Ioo (c := 0) (e := 1) ⟨h0, h1⟩ (a := fun y => y) ?_ (hasDerivAt_id' x)
    intro y hy
    rw [pos_of_nonneg hy.1.le, min_eq_right hy.2.le]
  · refine ⟨_, _, computes_s, ?_, deriv_s x⟩
    simp [derivInterpFunc, pos_of_nonneg h0]

/-- **C11** (violation): kind `l` reports slope 1 everywhere outside [0,1], where the function is
constant (`.or.` for `.and.`, source/fortran/functions.f:132-133). -/
theorem c11_violation_l (x : ℝ) (h : x < 0 ∨ 1 < x) :
    MisreportsDerivAt (derivInterpFunc 'l') (interpFunc 'l') x := by
  have hr : derivInterpFunc 'l' x = some 1 := by
    have : x > 0 ∨ x < 1 := by rcases h with h | h <;> [right; left] <;> linarith
    simp [derivInterpFunc, this]
  refine ⟨_, 0, 1, computes_l, hr, ?_, by norm_num⟩
  rcases h with h | h
  · exact hasDerivAt_congr_lt h (a := fun _ => 0)
      (fun y hy => by rw [pos_of_nonpos hy.le]; simp) (hasDerivAt_const _ _)
  · exact hasDerivAt_congr_gt h (a := fun _ => 1)
      (fun y hy => by rw [pos_of_nonneg (by linarith), min_eq_left hy.le]) (hasDerivAt_const _ _)

/-- **C11** (violation): kind `s` reports slope 0 for every negative argument, where the function is
strictly decreasing. -/
theorem c11_violation_s (x : ℝ) (h : x < 0) :
    MisreportsDerivAt (derivInterpFunc 's') (interpFunc 's') x := by
  refine ⟨_, _, 0, computes_s, ?_, deriv_s x, ?_⟩
  · simp [derivInterpFunc, pos_of_nonpos h.le]
  · have : gamma * x < 0 := mul_neg_of_pos_of_neg (by norm_num [gamma]) h
    have ht : Real.tanh (gamma * x) < 0 := by
      rw [Real.tanh_eq_sinh_div_cosh]
      exact div_neg_of_neg_of_pos (Real.sinh_neg_iff.mpr this) (Real.cosh_pos _)
    have hg : (0:ℝ) < gamma := by norm_num [gamma]
    exact (div_neg_of_neg_of_pos (mul_neg_of_pos_of_neg hg ht) cosh_gamma).ne'

/-- Which kinds have a second derivative routine; all other kinds abort. -/
theorem c11_second_supported (ty : Char) (x : ℝ) :
    (secondDerivInterpFunc ty x).isSome ↔ ty ∈ ['q', 'p', 'h', 'w', 'l', 'a', 'c'] := by
  unfold secondDerivInterpFunc
  split_ifs <;> simp_all

/-- **C11** (second derivatives): the second-derivative routine returns the derivative of the
first-derivative routine: everywhere for `p`, `l`, `c`; away from 0 for `q`; inside (0,1) for `h`;
for positive arguments for `w`.  Missing: `h` outside [0,1] and `w` below 0
(`c11_violation_second_h`, `c11_violation_second_w`), and kinds `m`, `3`, `s` have no routine. -/
theorem c11_second_partial (ty : Char) (x : ℝ)
    (h : ty = 'p' ∨ ty = 'l' ∨ ty = 'c' ∨ (ty = 'q' ∧ x ≠ 0) ∨ (ty = 'h' ∧ 0 < x ∧ x < 1) ∨
      (ty = 'w' ∧ 0 < x)) :
    ReportsDerivAt (secondDerivInterpFunc ty) (derivInterpFunc ty) x := by
  rcases h with rfl | rfl | rfl | ⟨rfl, h⟩ | ⟨rfl, h0, h1⟩ | ⟨rfl, h0⟩
  · refine ⟨fun y => (fun z => 30 * z * z * (1 - z) * (1 - z)) (clamp y), _, fun _ => rfl, rfl,
      hasDerivAt_clamp (g := fun z => 30 * z * z * (1 - z) * (1 - z))
        (g' := fun x => 60 * x * (1 - 3 * x + 2 * x * x)) ?_ (by simp) (by norm_num) x⟩
    intro y _
    have h1 := (hasDerivAt_id' y).const_sub 1
    have h2 := ((((hasDerivAt_id' y).const_mul 30).mul (hasDerivAt_id' y)).mul h1).mul h1
    exact h2.congr_deriv (by simp; ring)
  · refine ⟨fun _ => 1, 0, ?_, rfl, hasDerivAt_const _ _⟩
    intro y
    have : y > 0 ∨ y < 1 := by
      rcases lt_or_ge 0 y with h | h
      · exact Or.inl h
      · exact Or.inr (by linarith)
    simp [derivInterpFunc, this]
  · exact ⟨fun _ => 0, 0, fun _ => rfl, rfl, hasDerivAt_const _ _⟩
  · refine ⟨fun y => 2 * pos y, if x ≥ 0 then 2 else 0, fun _ => rfl, ?_, ?_⟩
    · simp only [secondDerivInterpFunc]; split_ifs <;> simp_all
    rcases lt_or_gt_of_ne h with h | h
    · rw [if_neg (not_le.mpr h)]
      exact hasDerivAt_congr_lt h (a := fun _ => 0)
        (fun y hy => by rw [pos_of_nonpos hy.le]; simp) (hasDerivAt_const _ _)
    · rw [if_pos h.le]
      refine hasDerivAt_congr_gt h (a := fun y => 2 * y)
        (fun y hy => by rw [pos_of_nonneg hy.le]) ?_
      simpa using (hasDerivAt_id' x).const_mul 2
  · refine ⟨fun y => (fun z => 6 * z * (1 - z)) (clamp y), 6 * (1 - 2 * x), fun _ => rfl, ?_, ?_⟩
    · simp [secondDerivInterpFunc, clamp_of_mem h0.le h1.le]
    · refine hasDerivAt_congr_Ioo (c := 0) (e := 1) ⟨h0, h1⟩ (a := fun z => 6 * z * (1 - z))
        (fun y hy => by rw [clamp_of_mem hy.1.le hy.2.le]) ?_
      have := ((hasDerivAt_id' x).const_mul 6).mul ((hasDerivAt_id' x).const_sub 1)
      exact this.congr_deriv (by ring)
  · refine ⟨fun y => (fun z => z * (4 - 3 * z)) (pos y), 4 - 6 * x, fun _ => rfl, ?_, ?_⟩
    · simp [secondDerivInterpFunc, pos_of_nonneg h0.le]
    · refine hasDerivAt_congr_gt h0 (a := fun z => z * (4 - 3 * z))
        (fun y hy => by rw [pos_of_nonneg hy.le]) ?_
      have := (hasDerivAt_id' x).mul (((hasDerivAt_id' x).const_mul 3).const_sub 4)
      exact this.congr_deriv (by ring)

/-- **C11** (violation): outside [0,1] kind `h` reports a second derivative of ±6 although the reported
first derivative is constantly 0 there. -/
theorem c11_violation_second_h (x : ℝ) (h : x < 0 ∨ 1 < x) :
    MisreportsDerivAt (secondDerivInterpFunc 'h') (derivInterpFunc 'h') x := by
  rcases h with h | h
  · refine ⟨fun y => 6 * clamp y * (1 - clamp y), 0, 6, fun _ => rfl, ?_, ?_, by norm_num⟩
    · simp [secondDerivInterpFunc, clamp_of_nonpos h.le]
    · exact hasDerivAt_congr_lt h (a := fun _ => 0)
        (fun y hy => by rw [clamp_of_nonpos hy.le]; simp) (hasDerivAt_const _ _)
  · refine ⟨fun y => 6 * clamp y * (1 - clamp y), 0, -6, fun _ => rfl, ?_, ?_, by norm_num⟩
    · simp [secondDerivInterpFunc, clamp_of_ge h.le]; norm_num
    · exact hasDerivAt_congr_gt h (a := fun _ => 0)
        (fun y hy => by rw [clamp_of_ge hy.le]; simp) (hasDerivAt_const _ _)

/-- **C11** (violation): below 0 kind `w` reports a second derivative of 4 although the reported first
derivative is constantly 0 there. -/
theorem c11_violation_second_w (x : ℝ) (h : x < 0) :
    MisreportsDerivAt (secondDerivInterpFunc 'w') (derivInterpFunc 'w') x := by
  refine ⟨fun y => pos y * (4 - 3 * pos y), 0, 4, fun _ => rfl, ?_, ?_, by norm_num⟩
  · simp [secondDerivInterpFunc, pos_of_nonpos h.le]
  · exact hasDerivAt_congr_lt h (a := fun _ => 0)
      (fun y hy => by rw [pos_of_nonpos hy.le]; simp) (hasDerivAt_const _ _)

/-! ## C12 -/

/-- **C12**: the double well is non-negative, vanishes exactly at the two pure phases and is symmetric
about one half. -/
theorem c12_double_well (x : ℝ) : ∃ u, wellFunc 'd' x = some u ∧ 0 ≤ u ∧ (u = 0 ↔ x = 0 ∨ x = 1) ∧
    wellFunc 'd' (1 - x) = some u := by
  have e : 16 * x * x * (1 - x) * (1 - x) = 16 * (x * (1 - x)) ^ 2 := by ring
  refine ⟨_, rfl, ?_, ?_, ?_⟩
  · rw [e]; positivity
  · rw [e, mul_eq_zero, pow_eq_zero_iff (by norm_num), mul_eq_zero, sub_eq_zero]
    constructor
    · rintro (h | h | h)
      · norm_num at h
      · exact Or.inl h
      · exact Or.inr h.symm
    · rintro (h | h)
      · exact Or.inr (Or.inl h)
      · exact Or.inr (Or.inr h.symm)
  · simp [wellFunc]; ring

/-- **C12**: the barrier between the two phases: the well is at most 1 between them, attained exactly
at one half. -/
theorem c12_barrier (x u : ℝ) (h0 : 0 ≤ x) (h1 : x ≤ 1) (hu : wellFunc 'd' x = some u) :
    u ≤ 1 ∧ (u = 1 ↔ x = 1 / 2) := by
  simp [wellFunc] at hu
  subst hu
  have hp : 0 ≤ 4 * (x * (1 - x)) := by nlinarith
  have hq : 4 * (x * (1 - x)) ≤ 1 := by nlinarith [sq_nonneg (2 * x - 1)]
  have e : 16 * x * x * (1 - x) * (1 - x) = (4 * (x * (1 - x))) ^ 2 := by ring
  rw [e]
  refine ⟨by nlinarith, ?_, ?_⟩
  · intro h
    have h4 : 4 * (x * (1 - x)) = 1 := by nlinarith
    nlinarith [sq_nonneg (2 * x - 1)]
  · rintro rfl; norm_num

/-- **C12**: the single-well kind is non-negative and vanishes exactly at the pure phase 1. -/
theorem c12_single_well (x : ℝ) : ∃ u, wellFunc 's' x = some u ∧ 0 ≤ u ∧ (u = 0 ↔ x = 1) := by
  refine ⟨_, rfl, mul_self_nonneg _, ?_⟩
  rw [mul_self_eq_zero, sub_eq_zero, eq_comm]

/-- **C12**: derivative and second derivative routines of both kinds are true derivatives. -/
theorem c12_derivatives (ty : Char) (h : ty = 'd' ∨ ty = 's') (x : ℝ) :
    ReportsDerivAt (derivWellFunc ty) (wellFunc ty) x ∧
    ReportsDerivAt (secondDerivWellFunc ty) (derivWellFunc ty) x := by
  have h1 := (hasDerivAt_id' x).const_sub 1
  rcases h with rfl | rfl
  · constructor
    · refine ⟨_, _, fun _ => rfl, rfl, ?_⟩
      have := ((((hasDerivAt_id' x).const_mul 16).mul (hasDerivAt_id' x)).mul h1).mul h1
      exact this.congr_deriv (by simp; ring)
    · refine ⟨_, _, fun _ => rfl, rfl, ?_⟩
      have := (((hasDerivAt_id' x).const_mul 32).mul h1).mul
        (((hasDerivAt_id' x).const_mul 2).const_sub 1)
      exact this.congr_deriv (by simp; ring)
  · constructor
    · refine ⟨_, _, fun _ => rfl, rfl, ?_⟩
      exact (h1.mul h1).congr_deriv (by ring)
    · refine ⟨_, _, fun _ => rfl, rfl, ?_⟩
      exact (((hasDerivAt_id' x).sub_const 1).const_mul 2).congr_deriv (by ring)

/-- **C12**: any other kind aborts in all three routines. -/
theorem c12_other_kinds_abort (ty : Char) (h : ty ≠ 'd') (h' : ty ≠ 's') (x : ℝ) :
    wellFunc ty x = none ∧ derivWellFunc ty x = none ∧ secondDerivWellFunc ty x = none := by
  simp [wellFunc, derivWellFunc, secondDerivWellFunc, h, h']

/-! ## C13 -/

theorem threshold_pos : 0 < threshold := by unfold threshold; positivity

/-- **C13**: averaging is symmetric in its two arguments and aborts exactly for unknown kinds. -/
theorem c13_symmetric (ty : Char) (a b : ℝ) :
    averageFunc ty a b = averageFunc ty b a ∧
    ((averageFunc ty a b).isSome ↔ ty = 'a' ∨ ty = 'h') := by
  constructor
  · unfold averageFunc
    simp only [add_comm a b, add_comm (1 / a), or_comm (a := a < threshold)]
  · unfold averageFunc; split_ifs <;> simp_all

/-- **C13**: the average lies between the two values; for the arithmetic kind always, for the
harmonic kind whenever both are at least the threshold 1e-16 (below it the result is 0). -/
theorem c13_between (ty : Char) (a b u : ℝ)
    (h : ty = 'a' ∨ ty = 'h' ∧ threshold ≤ a ∧ threshold ≤ b) (hu : averageFunc ty a b = some u) :
    min a b ≤ u ∧ u ≤ max a b := by
  rcases h with rfl | ⟨rfl, ha, hb⟩
  · simp [averageFunc] at hu
    subst hu
    rcases le_total a b with h | h <;> simp [h] <;> constructor <;> linarith
  · have hp := threshold_pos
    have ha0 : 0 < a := by linarith
    have hb0 : 0 < b := by linarith
    simp [averageFunc, not_lt.mpr ha, not_lt.mpr hb] at hu
    subst hu
    have e : 2 / (a⁻¹ + b⁻¹) = 2 * a * b / (a + b) := by field_simp; ring
    have hs : 0 < a + b := by linarith
    rw [e, le_div_iff₀ hs, div_le_iff₀ hs]
    rcases le_total a b with h | h <;> simp [h] <;> constructor <;> nlinarith

/-- **C13**: for all non-negative values, including those below the threshold, the result is
non-negative, at most the larger value and at most 1e-16 below the smaller one. -/
theorem c13_between_nonneg (ty : Char) (a b u : ℝ) (ha : 0 ≤ a) (hb : 0 ≤ b)
    (hu : averageFunc ty a b = some u) :
    0 ≤ u ∧ u ≤ max a b ∧ min a b - threshold ≤ u := by
  have hp := threshold_pos
  have hk : ty = 'a' ∨ ty = 'h' := (c13_symmetric ty a b).2.mp (by rw [hu]; rfl)
  by_cases hc : ty = 'h' ∧ (a < threshold ∨ b < threshold)
  · obtain ⟨rfl, hc⟩ := hc
    simp [averageFunc, hc] at hu
    subst hu
    refine ⟨le_rfl, ha.trans (le_max_left _ _), ?_⟩
    rcases hc with h | h
    · have := min_le_left a b; linarith
    · have := min_le_right a b; linarith
  · have := c13_between ty a b u (by
      rcases hk with h | h
      · exact Or.inl h
      · refine Or.inr ⟨h, ?_, ?_⟩ <;> by_contra hh <;> exact hc ⟨h, by simp [not_le.mp hh]⟩) hu
    have h0 : 0 ≤ min a b := le_min ha hb
    exact ⟨h0.trans this.1, this.2, by linarith [this.1]⟩

/-- **C13**: equal values are reproduced exactly (harmonic: at or above the threshold). -/
theorem c13_equal_values (ty : Char) (a : ℝ) (h : ty = 'a' ∨ ty = 'h' ∧ threshold ≤ a) :
    averageFunc ty a a = some a := by
  rcases h with rfl | ⟨rfl, h⟩
  · simp [averageFunc]; ring
  · have : a ≠ 0 := by linarith [threshold_pos]
    simp [averageFunc, not_lt.mpr h]
    field_simp
    norm_num

/-- **C13**: the harmonic kind never divides by zero: in the dividing branch both reciprocals and
their sum are positive. -/
theorem c13_harmonic_denominator (a b : ℝ) (h : ¬ (a < threshold ∨ b < threshold)) :
    0 < a ∧ 0 < b ∧ 0 < 1 / a + 1 / b := by
  push Not at h
  have hp := threshold_pos
  have ha : 0 < a := by linarith
  have hb : 0 < b := by linarith
  exact ⟨ha, hb, by positivity⟩

/-- **C13**: the harmonic average never exceeds the arithmetic one. -/
theorem c13_harmonic_le_arithmetic (a b u v : ℝ) (ha : 0 ≤ a) (hb : 0 ≤ b)
    (hu : averageFunc 'h' a b = some u) (hv : averageFunc 'a' a b = some v) : u ≤ v := by
  simp [averageFunc] at hv
  by_cases hc : a < threshold ∨ b < threshold
  · simp [averageFunc, hc] at hu; subst hu hv; positivity
  · obtain ⟨ha0, hb0, _⟩ := c13_harmonic_denominator a b hc
    simp [averageFunc, hc] at hu
    subst hu hv
    have e : 2 / (a⁻¹ + b⁻¹) = 2 * a * b / (a + b) := by field_simp; ring
    rw [e, div_le_iff₀ (by linarith)]
    nlinarith [sq_nonneg (a - b)]

/-- Partial derivative of the harmonic mean in its first argument. -/
theorem harmonic_hasDerivAt (a b : ℝ) (ha : 0 < a) (hb : 0 < b) :
    HasDerivAt (fun y => 2 / (1 / y + 1 / b)) (2 * b ^ 2 / (a + b) ^ 2) a := by
  have h1 : HasDerivAt (fun y : ℝ => 1 / y + 1 / b) (-(a ^ 2)⁻¹) a := by
    have := (hasDerivAt_inv ha.ne').add_const (1 / b)
    simpa [one_div] using this
  have hne : 1 / a + 1 / b ≠ 0 := by positivity
  have := (hasDerivAt_const a (2:ℝ)).div h1 hne
  refine this.congr_deriv ?_
  field_simp
  ring

/-- **C13** (derivative, arithmetic kind): the derivative routine is right. -/
theorem c13_deriv_arithmetic_partial (a b avg : ℝ) :
    ∃ F d, Computes (fun y => averageFunc 'a' y b) F ∧ derivAverageFunc 'a' avg a = some d ∧
      HasDerivAt F d a := by
  refine ⟨_, _, fun _ => rfl, rfl, ?_⟩
  exact (((hasDerivAt_id' a).add_const b).const_mul 0.5).congr_deriv (by ring)

/-- **C13** (violation, harmonic kind): called as in `quatdiffusionderiv` - with the average itself and
the cell value `a` (source/fortran/2d/quatdiffusion.m4:94-100) - the routine returns the true partial derivative
only when the two cell values coincide. -/
theorem c13_violation_deriv_harmonic (a b avg d : ℝ) (ha : threshold < a) (hb : threshold < b)
    (havg : averageFunc 'h' a b = some avg) (hd : derivAverageFunc 'h' avg a = some d) :
    (∃ F d', (∀ y, threshold < y → averageFunc 'h' y b = some (F y)) ∧ HasDerivAt F d' a ∧
      (d = d' ↔ a = b)) := by
  have hp := threshold_pos
  have ha0 : 0 < a := by linarith
  have hb0 : 0 < b := by linarith
  have hbt := c13_between 'h' a b avg (Or.inr ⟨rfl, ha.le, hb.le⟩) havg
  have hav : threshold ≤ avg := (le_min ha.le hb.le).trans hbt.1
  refine ⟨_, _, ?_, harmonic_hasDerivAt a b ha0 hb0, ?_⟩
  · intro y hy
    simp [averageFunc, not_lt.mpr hy.le, not_lt.mpr hb.le]
  · simp [derivAverageFunc, not_lt.mpr hav] at hd
    simp [averageFunc, not_lt.mpr ha.le, not_lt.mpr hb.le] at havg
    have e : 2 / (a⁻¹ + b⁻¹) = 2 * a * b / (a + b) := by field_simp; ring
    rw [e] at havg
    have hs : 0 < a + b := by linarith
    have hdv : d = (a + b) ^ 2 / (8 * b ^ 2) := by
      rw [← hd, ← havg]; field_simp; ring
    rw [hdv, div_eq_div_iff (by positivity) (by positivity)]
    constructor
    · intro h
      have h4 : (a + b) ^ 4 = (2 * b) ^ 4 := by nlinarith
      have := (pow_left_inj₀ hs.le (by positivity) (by norm_num)).mp h4
      linarith
    · rintro rfl; ring

/-! ## Non-vacuity -/

/-- Unequal cell values 1 and 3 meet the hypotheses of the violation theorem. -/
example : ∃ avg d, averageFunc 'h' 1 3 = some avg ∧ derivAverageFunc 'h' avg 1 = some d ∧
    threshold < 1 ∧ threshold < 3 := by
  have h1 : threshold < 1 := by unfold threshold; norm_num
  have h3 : threshold < 3 := by linarith
  refine ⟨3 / 2, 2 / 9, ?_, ?_, h1, h3⟩
  · simp [averageFunc, not_lt.mpr h1.le, not_lt.mpr h3.le]; norm_num
  · have : ¬ (3 / 2 : ℝ) < threshold := by linarith
    simp [derivAverageFunc, this]; norm_num

example : interpFunc 'p' (1 / 2) = some (1 / 2) := by
  simp [interpFunc, clamp_of_mem (show (0:ℝ) ≤ 2⁻¹ by norm_num) (by norm_num)]; norm_num

example : ReportsDerivAt (derivInterpFunc 'h') (interpFunc 'h') (1 / 3) :=
  c11_first_partial _ _ (Or.inl (by simp [derivGood]))

example : MisreportsDerivAt (derivInterpFunc 'l') (interpFunc 'l') 2 :=
  c11_violation_l 2 (Or.inr (by norm_num))

example : ReportsDerivAt (secondDerivInterpFunc 'w') (derivInterpFunc 'w') (1 / 3) :=
  c11_second_partial _ _ (by norm_num)

example : threshold ≤ 2 ∧ averageFunc 'h' 2 2 = some 2 :=
  have h : threshold ≤ 2 := by unfold threshold; norm_num
  ⟨h, c13_equal_values 'h' 2 (Or.inr ⟨rfl, h⟩)⟩

end AMPE.Functions.Props
