import Verif.Model.Smoothing
import Verif.Props.Quat
import Verif.Proofs.MeltFlow3
import Verif.Props.ConservedFlow
import Mathlib.Tactic.Linarith
import Mathlib.Tactic.FinCases
import Mathlib.Data.Fintype.Basic
import Mathlib.Tactic.Ring
import Mathlib.Tactic.NormNum
import Mathlib.Tactic.Positivity
import Mathlib.Tactic.LinearCombination

/-!
# C112: resetting the orientations

Specification: smoothing touches the liquid cells only, keeps values between those of the neighbourhood, never raises the
roughness of the orientation field, and leaves a grain of one orientation alone; the orientation stays a rotation.  Reset happens
when a grain has disappeared or the interval is due.  Bringing orientations to the fundamental zone gives one representative for
all descriptions of the same orientation.
-/

namespace AMPE.Smoothing.Props

open AMPE.Smoothing AMPE.Flux AMPE.Tagging AMPE.Quat AMPE.Quat.Props AMPE.QuatFlow AMPE.MeltFlow AMPE.PhaseRHS
  AMPE.ConservedFlow.Props

/-- No rotation on any side. -/
abbrev plain (n : ℕ) : ℤ → ℤ → QVec n → QVec n := fun _ _ => id
@[inherit_doc plain]
abbrev plain3 (n : ℕ) : Rot3 n := fun _ _ _ => id

variable {n : ℕ}

/-! ## Smoothing -/

/-- **C112** Cells at or above the threshold keep their orientation, whatever the rotations; in two and three dimensions and for
any number of passes. -/
theorem c112_frozen (k : ℕ) (thr : ℝ) (phase : Field2) (Sx Sy : ℤ → ℤ → QVec n → QVec n) (q : QField n) (i j : ℤ)
    (h : thr ≤ phase i j) : passes2 k thr phase Sx Sy q i j = q i j := by
  unfold passes2
  induction k with
  | zero => rfl
  | succ k ih =>
    rw [Function.iterate_succ_apply']
    generalize (pass2 thr phase Sx Sy)^[k] q = p at ih ⊢
    funext m
    unfold pass2 smooth2
    rw [if_neg (not_lt.mpr h), ih]

theorem c112_frozen_3d (thr : ℝ) (phase : Field3) (Sx Sy Sz : Rot3 n) (q : QField3 n) (i j k : ℤ)
    (h : thr ≤ phase i j k) : pass3 thr phase Sx Sy Sz q i j k = q i j k := by
  funext m
  unfold pass3 smooth3
  rw [if_neg (not_lt.mpr h)]

/-- **C112** A cell below the threshold gets half of its own value and an eighth of each of the four neighbours. -/
theorem c112_mean (thr : ℝ) (phase : Field2) (q : QField n) (i j : ℤ) (m : Fin n) (h : phase i j < thr) :
    pass2 thr phase (plain n) (plain n) q i j m =
      q i j m / 2 + (q (i - 1) j m + q (i + 1) j m + q i (j - 1) m + q i (j + 1) m) / 8 := by
  unfold pass2 smooth2 qdiffX qdiffY plain
  rw [if_pos h]
  simp only [Pi.sub_apply, id, add_sub_cancel_right]
  norm_num
  ring

/-- **C112** In three dimensions it gets the mean of the six neighbours; its own value is lost. -/
theorem c112_mean_3d (thr : ℝ) (phase : Field3) (q : QField3 n) (i j k : ℤ) (m : Fin n) (h : phase i j k < thr) :
    pass3 thr phase (plain3 n) (plain3 n) (plain3 n) q i j k m =
      (q (i - 1) j k m + q (i + 1) j k m + q i (j - 1) k m + q i (j + 1) k m + q i j (k - 1) m + q i j (k + 1) m) / 6 := by
  unfold pass3 smooth3 qdiff3X qdiff3Y qdiff3Z plain3
  rw [if_pos h]
  simp only [Pi.sub_apply, id, add_sub_cancel_right]
  ring

/-- **C112** No new extremes: if the components of all orientations lie in an interval before, they do after any number of
passes. -/
theorem c112_between (k : ℕ) (thr : ℝ) (phase : Field2) (q : QField n) (a b : ℝ) (m : Fin n)
    (h : ∀ i j, a ≤ q i j m ∧ q i j m ≤ b) (i j : ℤ) :
    a ≤ passes2 k thr phase (plain n) (plain n) q i j m ∧ passes2 k thr phase (plain n) (plain n) q i j m ≤ b := by
  unfold passes2
  induction k generalizing i j with
  | zero => exact h i j
  | succ k ih =>
    rw [Function.iterate_succ_apply']
    by_cases hp : phase i j < thr
    · rw [c112_mean thr phase _ i j m hp]
      have h0 := ih i j
      have h1 := ih (i - 1) j
      have h2 := ih (i + 1) j
      have h3 := ih i (j - 1)
      have h4 := ih i (j + 1)
      constructor <;> linarith [h0.1, h1.1, h2.1, h3.1, h4.1, h0.2, h1.2, h2.2, h3.2, h4.2]
    · have := c112_frozen 1 thr phase (plain n) (plain n) ((pass2 thr phase (plain n) (plain n))^[k] q) i j (not_lt.mp hp)
      unfold passes2 at this
      rw [Function.iterate_one] at this
      rw [this]
      exact ih i j

/-- **C112** (3D) The same in three dimensions, one pass. -/
theorem c112_between_3d (thr : ℝ) (phase : Field3) (q : QField3 n) (a b : ℝ) (m : Fin n)
    (h : ∀ i j k, a ≤ q i j k m ∧ q i j k m ≤ b) (i j k : ℤ) :
    a ≤ pass3 thr phase (plain3 n) (plain3 n) (plain3 n) q i j k m ∧ pass3 thr phase (plain3 n) (plain3 n) (plain3 n) q i j k m ≤ b := by
  by_cases hp : phase i j k < thr
  · rw [c112_mean_3d thr phase q i j k m hp]
    have h1 := h (i - 1) j k
    have h2 := h (i + 1) j k
    have h3 := h i (j - 1) k
    have h4 := h i (j + 1) k
    have h5 := h i j (k - 1)
    have h6 := h i j (k + 1)
    constructor <;> linarith [h1.1, h2.1, h3.1, h4.1, h5.1, h6.1, h1.2, h2.2, h3.2, h4.2, h5.2, h6.2]
  · rw [c112_frozen_3d thr phase _ _ _ q i j k (not_lt.mp hp)]
    exact h i j k

/-- **C112** A cell whose four neighbours describe the same orientation as itself, each in the frame given by the rotation of the
side, is not changed, with any rotations. -/
theorem c112_same_grain (thr : ℝ) (phase : Field2) (Sx Sy : ℤ → ℤ → QVec n → QVec n) (q : QField n) (i j : ℤ)
    (hl : q i j = Sx i j (q (i - 1) j)) (hr : q (i + 1) j = Sx (i + 1) j (q i j))
    (hb : q i j = Sy i j (q i (j - 1))) (ht : q i (j + 1) = Sy i (j + 1) (q i j)) :
    pass2 thr phase Sx Sy q i j = q i j := by
  funext m
  unfold pass2 smooth2 qdiffX qdiffY
  simp only [add_sub_cancel_right, Pi.sub_apply, ← hl, ← hr, ← hb, ← ht, sub_self, mul_zero, sub_zero, add_zero, ite_self]

/-! ### Roughness -/

/-- Specification: sum of the squared jumps between neighbouring cells over a block. -/
noncomputable def rough (N M : ℕ) (lo0 lo1 : ℤ) (u : Field2) : ℝ :=
  S2 N M lo0 lo1 fun i j => (u i j - u (i - 1) j) ^ 2 + (u i j - u i (j - 1)) ^ 2

/-- Deviation of a cell from its neighbours. -/
def dev (u : Field2) : Field2 := fun i j => u (i - 1) j + u (i + 1) j + u i (j - 1) + u i (j + 1) - 4 * u i j

theorem partsX' {N M : ℕ} {lo0 lo1 : ℤ} {w F : Field2} (hw : Periodic2 N M w) (hF : Periodic2 N M F) :
    S2 N M lo0 lo1 (fun i j => (w i j - w (i - 1) j) * F i j) = -S2 N M lo0 lo1 (fun i j => w i j * (F (i + 1) j - F i j)) := by
  have h := partsX lo0 lo1 hw hF
  unfold total at h
  unfold S2
  rw [h, neg_neg]

theorem partsY' {N M : ℕ} {lo0 lo1 : ℤ} {w F : Field2} (hw : Periodic2 N M w) (hF : Periodic2 N M F) :
    S2 N M lo0 lo1 (fun i j => (w i j - w i (j - 1)) * F i j) = -S2 N M lo0 lo1 (fun i j => w i j * (F i (j + 1) - F i j)) := by
  have h := partsY lo0 lo1 hw hF
  unfold total at h
  unfold S2
  rw [h, neg_neg]

theorem rough_add (N M : ℕ) (lo0 lo1 : ℤ) (u w : Field2) (hu : Periodic2 N M u) (hw : Periodic2 N M w) :
    rough N M lo0 lo1 (fun i j => u i j + w i j) ≤
      rough N M lo0 lo1 u + S2 N M lo0 lo1 (fun i j => 8 * w i j ^ 2 - 2 * (w i j * dev u i j)) := by
  have hfx : Periodic2 N M fun i j => u i j - u (i - 1) j :=
    ⟨fun i j => by beta_reduce; rw [hu.1, show i + (N : ℤ) - 1 = i - 1 + N by ring, hu.1],
     fun i j => by beta_reduce; rw [hu.2, hu.2]⟩
  have hfy : Periodic2 N M fun i j => u i j - u i (j - 1) :=
    ⟨fun i j => by beta_reduce; rw [hu.1, hu.1],
     fun i j => by beta_reduce; rw [hu.2, show j + (M : ℤ) - 1 = j - 1 + M by ring, hu.2]⟩
  have hw2 : Periodic2 N M fun i j => w i j ^ 2 :=
    ⟨fun i j => by beta_reduce; rw [hw.1], fun i j => by beta_reduce; rw [hw.2]⟩
  have px := partsX' (lo0 := lo0) (lo1 := lo1) hw hfx
  have py := partsY' (lo0 := lo0) (lo1 := lo1) hw hfy
  have sx := S2_xm (lo0 := lo0) (lo1 := lo1) hw2
  have sy := S2_ym (lo0 := lo0) (lo1 := lo1) hw2
  beta_reduce at px py sx sy
  -- names for the sums
  let g : Field2 := fun i j => (u i j - u (i - 1) j) ^ 2 + (u i j - u i (j - 1)) ^ 2
  let cx : Field2 := fun i j => (w i j - w (i - 1) j) * (u i j - u (i - 1) j)
  let cy : Field2 := fun i j => (w i j - w i (j - 1)) * (u i j - u i (j - 1))
  let w0 : Field2 := fun i j => w i j ^ 2
  let wx : Field2 := fun i j => w (i - 1) j ^ 2
  let wy : Field2 := fun i j => w i (j - 1) ^ 2
  let ex : Field2 := fun i j => w i j * (u (i + 1) j - u (i + 1 - 1) j - (u i j - u (i - 1) j))
  let ey : Field2 := fun i j => w i j * (u i (j + 1) - u i (j + 1 - 1) - (u i j - u i (j - 1)))
  have step1 : rough N M lo0 lo1 (fun i j => u i j + w i j) ≤
      S2 N M lo0 lo1 (fun i j => g i j + (2 * cx i j + (2 * cy i j + (4 * w0 i j + (2 * wx i j + 2 * wy i j))))) := by
    refine S2_le fun i j => ?_
    simp only [g, cx, cy, w0, wx, wy]
    nlinarith [sq_nonneg (w i j + w (i - 1) j), sq_nonneg (w i j + w i (j - 1))]
  have step2 : S2 N M lo0 lo1 (fun i j => g i j + (2 * cx i j + (2 * cy i j + (4 * w0 i j + (2 * wx i j + 2 * wy i j))))) =
      S2 N M lo0 lo1 g + (2 * S2 N M lo0 lo1 cx + (2 * S2 N M lo0 lo1 cy + (4 * S2 N M lo0 lo1 w0 +
        (2 * S2 N M lo0 lo1 wx + 2 * S2 N M lo0 lo1 wy)))) := by
    rw [S2_add g, S2_add (fun i j => 2 * cx i j), S2_add (fun i j => 2 * cy i j), S2_add (fun i j => 4 * w0 i j),
      S2_add (fun i j => 2 * wx i j), S2_mul, S2_mul, S2_mul, S2_mul, S2_mul]
  have step3 : S2 N M lo0 lo1 (fun i j => 8 * w i j ^ 2 - 2 * (w i j * dev u i j)) =
      8 * S2 N M lo0 lo1 w0 - 2 * (S2 N M lo0 lo1 ex + S2 N M lo0 lo1 ey) := by
    rw [← S2_add ex, ← S2_mul, ← S2_mul, ← S2_sub]
    refine S2_congr fun i j => ?_
    simp only [w0, ex, ey, dev, add_sub_cancel_right]
    ring
  have px' : S2 N M lo0 lo1 cx = -S2 N M lo0 lo1 ex := px
  have py' : S2 N M lo0 lo1 cy = -S2 N M lo0 lo1 ey := py
  have sx' : S2 N M lo0 lo1 wx = S2 N M lo0 lo1 w0 := sx
  have sy' : S2 N M lo0 lo1 wy = S2 N M lo0 lo1 w0 := sy
  have hg : rough N M lo0 lo1 u = S2 N M lo0 lo1 g := rfl
  rw [step2, px', py', sx', sy'] at step1
  rw [step3, hg]
  linarith

/-- **C112** Smoothing (2D, periodic domain, no rotations, any liquid region): in each component the roughness does not grow; it
drops by at least an eighth of the squared deviations of the treated cells. -/
theorem c112_roughness (N M : ℕ) (lo0 lo1 : ℤ) (thr : ℝ) (phase : Field2) (hph : Periodic2 N M phase) (q : QField n) (m : Fin n)
    (hq : Periodic2 N M fun i j => q i j m) :
    rough N M lo0 lo1 (fun i j => pass2 thr phase (plain n) (plain n) q i j m) ≤
      rough N M lo0 lo1 (fun i j => q i j m) -
        S2 N M lo0 lo1 (fun i j => if phase i j < thr then dev (fun i j => q i j m) i j ^ 2 / 8 else 0) := by
  set u : Field2 := fun i j => q i j m with hu
  have e : (fun i j => pass2 thr phase (plain n) (plain n) q i j m) =
      fun i j => u i j + (if phase i j < thr then dev u i j / 8 else 0) := by
    funext i j
    by_cases h : phase i j < thr
    · rw [c112_mean thr phase q i j m h, if_pos h]
      simp only [hu, dev]
      ring
    · rw [if_neg h, add_zero]
      unfold pass2 smooth2
      rw [if_neg h]
  have hdev : ∀ i j, dev u (i + N) j = dev u i j ∧ dev u i (j + M) = dev u i j := by
    intro i j
    unfold dev
    rw [show i + (N : ℤ) - 1 = i - 1 + N by ring, show i + (N : ℤ) + 1 = i + 1 + N by ring,
      show j + (M : ℤ) - 1 = j - 1 + M by ring, show j + (M : ℤ) + 1 = j + 1 + M by ring]
    simp only [hq.1, hq.2, and_self]
  rw [e]
  have h := rough_add N M lo0 lo1 u (fun i j => if phase i j < thr then dev u i j / 8 else 0) hq
    ⟨fun i j => by beta_reduce; rw [hph.1, (hdev i j).1], fun i j => by beta_reduce; rw [hph.2, (hdev i j).2]⟩
  refine h.trans (le_of_eq ?_)
  rw [sub_eq_add_neg, ← neg_one_mul, ← S2_mul]
  congr 1
  refine S2_congr fun i j => ?_
  beta_reduce
  by_cases h : phase i j < thr
  · simp only [if_pos h]; ring
  · simp only [if_neg h]; ring

/-- **C112** The ten passes together never raise the roughness. -/
theorem c112_roughness_passes (k N M : ℕ) (lo0 lo1 : ℤ) (thr : ℝ) (phase : Field2) (hph : Periodic2 N M phase) (q : QField n)
    (hq : ∀ m, Periodic2 N M fun i j => q i j m) (m : Fin n) :
    rough N M lo0 lo1 (fun i j => passes2 k thr phase (plain n) (plain n) q i j m) ≤ rough N M lo0 lo1 (fun i j => q i j m) := by
  have key : (∀ m, Periodic2 N M fun i j => passes2 k thr phase (plain n) (plain n) q i j m) ∧
      rough N M lo0 lo1 (fun i j => passes2 k thr phase (plain n) (plain n) q i j m) ≤ rough N M lo0 lo1 (fun i j => q i j m) := by
    unfold passes2
    induction k with
    | zero => exact ⟨hq, le_rfl⟩
    | succ k ih =>
      rw [Function.iterate_succ_apply']
      generalize (pass2 thr phase (plain n) (plain n))^[k] q = p at ih ⊢
      refine ⟨fun m => ?_, ?_⟩
      · have hp := ih.1 m
        constructor
        · intro i j
          beta_reduce
          by_cases h : phase i j < thr
          · rw [c112_mean thr phase p i j m h, c112_mean thr phase p (i + N) j m (by rw [hph.1]; exact h),
              show i + (N : ℤ) - 1 = i - 1 + N by ring, show i + (N : ℤ) + 1 = i + 1 + N by ring]
            have h1 := hp.1 i j
            have h2 := hp.1 (i - 1) j
            have h3 := hp.1 (i + 1) j
            have h4 := hp.1 i (j - 1)
            have h5 := hp.1 i (j + 1)
            beta_reduce at h1 h2 h3 h4 h5
            rw [h1, h2, h3, h4, h5]
          · unfold pass2 smooth2
            rw [if_neg h, if_neg (by rw [hph.1]; exact h)]
            exact hp.1 i j
        · intro i j
          beta_reduce
          by_cases h : phase i j < thr
          · rw [c112_mean thr phase p i j m h, c112_mean thr phase p i (j + M) m (by rw [hph.2]; exact h),
              show j + (M : ℤ) - 1 = j - 1 + M by ring, show j + (M : ℤ) + 1 = j + 1 + M by ring]
            have h1 := hp.2 i j
            have h2 := hp.2 i (j - 1)
            have h3 := hp.2 i (j + 1)
            have h4 := hp.2 (i - 1) j
            have h5 := hp.2 (i + 1) j
            beta_reduce at h1 h2 h3 h4 h5
            rw [h1, h2, h3, h4, h5]
          · unfold pass2 smooth2
            rw [if_neg h, if_neg (by rw [hph.2]; exact h)]
            exact hp.2 i j
      · have h := c112_roughness N M lo0 lo1 thr phase hph p m (ih.1 m)
        have h0 : 0 ≤ S2 N M lo0 lo1 (fun i j => if phase i j < thr then dev (fun i j => p i j m) i j ^ 2 / 8 else 0) :=
          S2_nonneg fun i j => by split_ifs <;> positivity
        linarith [ih.2]
  exact key.2

/-! ### Three dimensions -/

/-- Specification: sum of the squared jumps, three dimensions. -/
noncomputable def rough3 (N M K : ℕ) (lo0 lo1 lo2 : ℤ) (u : Field3) : ℝ :=
  S3 N M K lo0 lo1 lo2 fun i j k => (u i j k - u (i - 1) j k) ^ 2 + (u i j k - u i (j - 1) k) ^ 2 + (u i j k - u i j (k - 1)) ^ 2

/-- Deviation of a cell from its six neighbours. -/
def dev3 (u : Field3) : Field3 := fun i j k =>
  u (i - 1) j k + u (i + 1) j k + u i (j - 1) k + u i (j + 1) k + u i j (k - 1) + u i j (k + 1) - 6 * u i j k

theorem S3_lin {N M K : ℕ} {lo0 lo1 lo2 : ℤ} (a b : ℝ) (f g : Field3) :
    S3 N M K lo0 lo1 lo2 (fun i j k => a * f i j k + b * g i j k) = a * S3 N M K lo0 lo1 lo2 f + b * S3 N M K lo0 lo1 lo2 g := by
  unfold S3
  simp only [Finset.sum_add_distrib, Finset.mul_sum]

theorem rough3_add (N M K : ℕ) (lo0 lo1 lo2 : ℤ) (u w : Field3) (hu : Periodic3 N M K u) (hw : Periodic3 N M K w) :
    rough3 N M K lo0 lo1 lo2 (fun i j k => u i j k + w i j k) ≤
      rough3 N M K lo0 lo1 lo2 u + S3 N M K lo0 lo1 lo2 (fun i j k => 12 * (w i j k * w i j k) - 2 * (w i j k * dev3 u i j k)) := by
  obtain ⟨x1, y1, z1⟩ := S3_cross (lo0 := lo0) (lo1 := lo1) (lo2 := lo2) u w hu hw
  have hww := mul_periodic hw hw
  have hwu := mul_periodic hw hu
  have shx : ∀ f : Field3, Periodic3 N M K f → S3 N M K lo0 lo1 lo2 (fun i j k => f (i - 1) j k) = S3 N M K lo0 lo1 lo2 f := by
    intro f hf
    have := S3_xp (lo0 := lo0) (lo1 := lo1) (lo2 := lo2) (xm_periodic hf)
    simp only [add_sub_cancel_right] at this
    exact this.symm
  have shy : ∀ f : Field3, Periodic3 N M K f → S3 N M K lo0 lo1 lo2 (fun i j k => f i (j - 1) k) = S3 N M K lo0 lo1 lo2 f := by
    intro f hf
    have := S3_yp (lo0 := lo0) (lo1 := lo1) (lo2 := lo2) (ym_periodic hf)
    simp only [add_sub_cancel_right] at this
    exact this.symm
  have shz : ∀ f : Field3, Periodic3 N M K f → S3 N M K lo0 lo1 lo2 (fun i j k => f i j (k - 1)) = S3 N M K lo0 lo1 lo2 f := by
    intro f hf
    have := S3_zp (lo0 := lo0) (lo1 := lo1) (lo2 := lo2) (zm_periodic hf)
    simp only [add_sub_cancel_right] at this
    exact this.symm
  have a1 := shx _ hww
  have a2 := shy _ hww
  have a3 := shz _ hww
  have b1 := shx _ hwu
  have b2 := shy _ hwu
  have b3 := shz _ hwu
  beta_reduce at a1 a2 a3 b1 b2 b3
  let g : Field3 := fun i j k => (u i j k - u (i - 1) j k) ^ 2 + (u i j k - u i (j - 1) k) ^ 2 + (u i j k - u i j (k - 1)) ^ 2
  let w0 : Field3 := fun i j k => w i j k * w i j k
  let wx : Field3 := fun i j k => w (i - 1) j k * w (i - 1) j k
  let wy : Field3 := fun i j k => w i (j - 1) k * w i (j - 1) k
  let wz : Field3 := fun i j k => w i j (k - 1) * w i j (k - 1)
  let p0 : Field3 := fun i j k => w i j k * u i j k
  let px : Field3 := fun i j k => w (i - 1) j k * u (i - 1) j k
  let py : Field3 := fun i j k => w i (j - 1) k * u i (j - 1) k
  let pz : Field3 := fun i j k => w i j (k - 1) * u i j (k - 1)
  let ux : Field3 := fun i j k => u i j k * w (i - 1) j k
  let uy : Field3 := fun i j k => u i j k * w i (j - 1) k
  let uz : Field3 := fun i j k => u i j k * w i j (k - 1)
  let lx : Field3 := fun i j k => w i j k * u (i - 1) j k
  let ly : Field3 := fun i j k => w i j k * u i (j - 1) k
  let lz : Field3 := fun i j k => w i j k * u i j (k - 1)
  let rx : Field3 := fun i j k => w i j k * u (i + 1) j k
  let ry : Field3 := fun i j k => w i j k * u i (j + 1) k
  let rz : Field3 := fun i j k => w i j k * u i j (k + 1)
  have step1 : rough3 N M K lo0 lo1 lo2 (fun i j k => u i j k + w i j k) ≤
      S3 N M K lo0 lo1 lo2 (fun i j k => 1 * g i j k + 1 * (2 * (3 * p0 i j k + 1 * (1 * px i j k + 1 * (1 * py i j k + 1 * pz i j k))) +
        (-2) * (1 * (1 * ux i j k + 1 * (1 * uy i j k + 1 * uz i j k)) + 1 * (1 * lx i j k + 1 * (1 * ly i j k + 1 * lz i j k))) )
        + 2 * (3 * w0 i j k + 1 * (1 * wx i j k + 1 * (1 * wy i j k + 1 * wz i j k)))) := by
    refine S3_le fun i j k => ?_
    simp only [g, w0, wx, wy, wz, p0, px, py, pz, ux, uy, uz, lx, ly, lz]
    nlinarith [sq_nonneg (w i j k + w (i - 1) j k), sq_nonneg (w i j k + w i (j - 1) k), sq_nonneg (w i j k + w i j (k - 1))]
  have add3 : ∀ f h : Field3, S3 N M K lo0 lo1 lo2 (fun i j k => f i j k + h i j k) = S3 N M K lo0 lo1 lo2 f + S3 N M K lo0 lo1 lo2 h := by
    intro f h
    unfold S3
    simp only [Finset.sum_add_distrib]
  have mul3 : ∀ (a : ℝ) (f : Field3), S3 N M K lo0 lo1 lo2 (fun i j k => a * f i j k) = a * S3 N M K lo0 lo1 lo2 f := by
    intro a f
    unfold S3
    simp only [Finset.mul_sum]
  have step2 : S3 N M K lo0 lo1 lo2 (fun i j k => 1 * g i j k + 1 * (2 * (3 * p0 i j k + 1 * (1 * px i j k + 1 * (1 * py i j k + 1 * pz i j k))) +
        (-2) * (1 * (1 * ux i j k + 1 * (1 * uy i j k + 1 * uz i j k)) + 1 * (1 * lx i j k + 1 * (1 * ly i j k + 1 * lz i j k))) )
        + 2 * (3 * w0 i j k + 1 * (1 * wx i j k + 1 * (1 * wy i j k + 1 * wz i j k)))) =
      S3 N M K lo0 lo1 lo2 g + 2 * (3 * S3 N M K lo0 lo1 lo2 p0 + S3 N M K lo0 lo1 lo2 px + S3 N M K lo0 lo1 lo2 py + S3 N M K lo0 lo1 lo2 pz)
        - 2 * (S3 N M K lo0 lo1 lo2 ux + S3 N M K lo0 lo1 lo2 uy + S3 N M K lo0 lo1 lo2 uz + S3 N M K lo0 lo1 lo2 lx +
          S3 N M K lo0 lo1 lo2 ly + S3 N M K lo0 lo1 lo2 lz) +
        2 * (3 * S3 N M K lo0 lo1 lo2 w0 + S3 N M K lo0 lo1 lo2 wx + S3 N M K lo0 lo1 lo2 wy + S3 N M K lo0 lo1 lo2 wz) := by
    clear_value g w0 wx wy wz p0 px py pz ux uy uz lx ly lz
    simp only [S3, Finset.sum_add_distrib, ← Finset.mul_sum]
    ring
  have step3 : S3 N M K lo0 lo1 lo2 (fun i j k => 12 * (w i j k * w i j k) - 2 * (w i j k * dev3 u i j k)) =
      12 * S3 N M K lo0 lo1 lo2 w0 - 2 * (S3 N M K lo0 lo1 lo2 lx + S3 N M K lo0 lo1 lo2 ly + S3 N M K lo0 lo1 lo2 lz +
        S3 N M K lo0 lo1 lo2 rx + S3 N M K lo0 lo1 lo2 ry + S3 N M K lo0 lo1 lo2 rz - 6 * S3 N M K lo0 lo1 lo2 p0) := by
    have e : (fun i j k => 12 * (w i j k * w i j k) - 2 * (w i j k * dev3 u i j k)) =
        fun i j k => 12 * w0 i j k + (-2) * (lx i j k + ly i j k + lz i j k + rx i j k + ry i j k + rz i j k + (-6) * p0 i j k) := by
      funext i j k
      simp only [w0, lx, ly, lz, rx, ry, rz, p0, dev3]
      ring
    rw [e]
    clear_value w0 lx ly lz rx ry rz p0
    simp only [S3, Finset.sum_add_distrib, ← Finset.mul_sum]
    ring
  have hg : rough3 N M K lo0 lo1 lo2 u = S3 N M K lo0 lo1 lo2 g := rfl
  have c1 : S3 N M K lo0 lo1 lo2 rx = S3 N M K lo0 lo1 lo2 ux := x1
  have c2 : S3 N M K lo0 lo1 lo2 ry = S3 N M K lo0 lo1 lo2 uy := y1
  have c3 : S3 N M K lo0 lo1 lo2 rz = S3 N M K lo0 lo1 lo2 uz := z1
  have d1 : S3 N M K lo0 lo1 lo2 wx = S3 N M K lo0 lo1 lo2 w0 := a1
  have d2 : S3 N M K lo0 lo1 lo2 wy = S3 N M K lo0 lo1 lo2 w0 := a2
  have d3 : S3 N M K lo0 lo1 lo2 wz = S3 N M K lo0 lo1 lo2 w0 := a3
  have e1 : S3 N M K lo0 lo1 lo2 px = S3 N M K lo0 lo1 lo2 p0 := b1
  have e2 : S3 N M K lo0 lo1 lo2 py = S3 N M K lo0 lo1 lo2 p0 := b2
  have e3 : S3 N M K lo0 lo1 lo2 pz = S3 N M K lo0 lo1 lo2 p0 := b3
  rw [step2, d1, d2, d3, e1, e2, e3] at step1
  rw [step3, hg, c1, c2, c3]
  linarith

/-- **C112** Smoothing in three dimensions (periodic, no rotations): the roughness does not grow. -/
theorem c112_roughness_3d (N M K : ℕ) (lo0 lo1 lo2 : ℤ) (thr : ℝ) (phase : Field3) (hph : Periodic3 N M K phase) (q : QField3 n)
    (m : Fin n) (hq : Periodic3 N M K fun i j k => q i j k m) :
    rough3 N M K lo0 lo1 lo2 (fun i j k => pass3 thr phase (plain3 n) (plain3 n) (plain3 n) q i j k m) ≤
      rough3 N M K lo0 lo1 lo2 (fun i j k => q i j k m) := by
  set u : Field3 := fun i j k => q i j k m with hu
  have e : (fun i j k => pass3 thr phase (plain3 n) (plain3 n) (plain3 n) q i j k m) =
      fun i j k => u i j k + (if phase i j k < thr then dev3 u i j k / 6 else 0) := by
    funext i j k
    by_cases h : phase i j k < thr
    · rw [c112_mean_3d thr phase q i j k m h, if_pos h]
      simp only [hu, dev3]
      ring
    · rw [if_neg h, add_zero]
      unfold pass3 smooth3
      rw [if_neg h]
  have hdev : ∀ i j k, dev3 u (i + N) j k = dev3 u i j k ∧ dev3 u i (j + M) k = dev3 u i j k ∧ dev3 u i j (k + K) = dev3 u i j k := by
    intro i j k
    unfold dev3
    rw [show i + (N : ℤ) - 1 = i - 1 + N by ring, show i + (N : ℤ) + 1 = i + 1 + N by ring,
      show j + (M : ℤ) - 1 = j - 1 + M by ring, show j + (M : ℤ) + 1 = j + 1 + M by ring,
      show k + (K : ℤ) - 1 = k - 1 + K by ring, show k + (K : ℤ) + 1 = k + 1 + K by ring]
    simp only [hq.1, hq.2.1, hq.2.2, and_self]
  rw [e]
  refine (rough3_add N M K lo0 lo1 lo2 u (fun i j k => if phase i j k < thr then dev3 u i j k / 6 else 0) hq
    ⟨fun i j k => by beta_reduce; rw [hph.1, (hdev i j k).1], fun i j k => by beta_reduce; rw [hph.2.1, (hdev i j k).2.1],
      fun i j k => by beta_reduce; rw [hph.2.2, (hdev i j k).2.2]⟩).trans (le_of_eq ?_)
  have z : (fun i j k => 12 * ((if phase i j k < thr then dev3 u i j k / 6 else 0) * (if phase i j k < thr then dev3 u i j k / 6 else 0)) -
      2 * ((if phase i j k < thr then dev3 u i j k / 6 else 0) * dev3 u i j k)) = fun (_ _ _ : ℤ) => (0 : ℝ) := by
    funext i j k
    by_cases h : phase i j k < thr
    · simp only [if_pos h]; ring
    · simp only [if_neg h]; ring
  rw [z]
  simp [S3]

/-- The alternating field. -/
noncomputable def alternating (v : QVec n) : QField3 n := fun i j k m => if (i + j + k) % 2 = 0 then v m else -v m

/-- **C112** (violated in three dimensions) A field that alternates from cell to cell is not smoothed at all: a pass turns it into
its negative, so that the roughness stays exactly what it was, after any number of passes. -/
theorem c112_violation_alternating (thr : ℝ) (phase : Field3) (h : ∀ i j k, phase i j k < thr) (v : QVec n) (c : ℕ) :
    (pass3 thr phase (plain3 n) (plain3 n) (plain3 n))^[c] (alternating v) = alternating ((-1 : ℝ) ^ c • v) := by
  induction c with
  | zero => simp
  | succ c ih =>
    rw [Function.iterate_succ_apply', ih]
    funext i j k m
    rw [c112_mean_3d thr phase _ i j k m (h i j k)]
    unfold alternating
    by_cases hp : (i + j + k) % 2 = 0
    · rw [if_neg (by omega), if_neg (by omega), if_neg (by omega), if_neg (by omega), if_neg (by omega), if_neg (by omega), if_pos hp]
      simp only [Pi.smul_apply, smul_eq_mul, pow_succ]
      ring
    · rw [if_pos (by omega), if_pos (by omega), if_pos (by omega), if_pos (by omega), if_pos (by omega), if_pos (by omega), if_neg hp]
      simp only [Pi.smul_apply, smul_eq_mul, pow_succ]
      ring

/-- **C112** In two dimensions one pass wipes such a field out. -/
theorem c112_alternating_2d (thr : ℝ) (phase : Field2) (h : ∀ i j, phase i j < thr) (v : QVec n) (i j : ℤ) (m : Fin n) :
    pass2 thr phase (plain n) (plain n) (fun i j m => if (i + j) % 2 = 0 then v m else -v m) i j m = 0 := by
  rw [c112_mean thr phase _ i j m (h i j)]
  by_cases hp : (i + j) % 2 = 0
  · rw [if_pos hp, if_neg (by omega), if_neg (by omega), if_neg (by omega), if_neg (by omega)]
    ring
  · rw [if_neg hp, if_pos (by omega), if_pos (by omega), if_pos (by omega), if_pos (by omega)]
    ring

/-! ### Length -/

/-- Specification: squared length of an orientation. -/
def len2 (v : QVec n) : ℝ := ∑ m, v m ^ 2

theorem len2_zero {v : QVec n} (h : len2 v = 0) : v = 0 := by
  funext m
  have := (Finset.sum_eq_zero_iff_of_nonneg (fun m _ => sq_nonneg (v m))).1 h m (Finset.mem_univ m)
  exact pow_eq_zero_iff (two_ne_zero) |>.1 this

theorem len2_nonneg (v : QVec n) : 0 ≤ len2 v := Finset.sum_nonneg fun m _ => sq_nonneg (v m)

/-- **C112** (violated) Smoothed orientations are not rotations any more: starting from orientations of length one the treated cell
has length at most one, and length one exactly when its four neighbours have its own orientation.  Nothing restores the length
afterwards. -/
theorem c112_violation_length (thr : ℝ) (phase : Field2) (q : QField n) (i j : ℤ) (h : phase i j < thr)
    (hq : ∀ i j, len2 (q i j) = 1) :
    len2 (pass2 thr phase (plain n) (plain n) q i j) ≤ 1 ∧
    (len2 (pass2 thr phase (plain n) (plain n) q i j) = 1 ↔
      q (i - 1) j = q i j ∧ q (i + 1) j = q i j ∧ q i (j - 1) = q i j ∧ q i (j + 1) = q i j) := by
  have key : len2 (pass2 thr phase (plain n) (plain n) q i j) + (1 / 16 * (len2 (q i j - q (i - 1) j) + len2 (q i j - q (i + 1) j) +
      len2 (q i j - q i (j - 1)) + len2 (q i j - q i (j + 1))) + 1 / 64 * (len2 (q (i - 1) j - q (i + 1) j) + len2 (q (i - 1) j - q i (j - 1)) +
      len2 (q (i - 1) j - q i (j + 1)) + len2 (q (i + 1) j - q i (j - 1)) + len2 (q (i + 1) j - q i (j + 1)) +
      len2 (q i (j - 1) - q i (j + 1)))) = 1 / 2 * len2 (q i j) + 1 / 8 * (len2 (q (i - 1) j) + len2 (q (i + 1) j) + len2 (q i (j - 1)) +
      len2 (q i (j + 1))) := by
    unfold len2
    simp only [Finset.mul_sum, ← Finset.sum_add_distrib]
    refine Finset.sum_congr rfl fun m _ => ?_
    rw [c112_mean thr phase q i j m h]
    simp only [Pi.sub_apply]
    ring
  simp only [hq] at key
  have n1 := len2_nonneg (q i j - q (i - 1) j)
  have n2 := len2_nonneg (q i j - q (i + 1) j)
  have n3 := len2_nonneg (q i j - q i (j - 1))
  have n4 := len2_nonneg (q i j - q i (j + 1))
  have n5 := len2_nonneg (q (i - 1) j - q (i + 1) j)
  have n6 := len2_nonneg (q (i - 1) j - q i (j - 1))
  have n7 := len2_nonneg (q (i - 1) j - q i (j + 1))
  have n8 := len2_nonneg (q (i + 1) j - q i (j - 1))
  have n9 := len2_nonneg (q (i + 1) j - q i (j + 1))
  have n10 := len2_nonneg (q i (j - 1) - q i (j + 1))
  refine ⟨by linarith, fun he => ?_, fun ⟨e1, e2, e3, e4⟩ => ?_⟩
  · have z : ∀ {a b : QVec n}, len2 (a - b) = 0 → b = a := fun hz => (sub_eq_zero.1 (len2_zero hz)).symm
    exact ⟨z (by linarith), z (by linarith), z (by linarith), z (by linarith)⟩
  · have z0 : len2 (0 : QVec n) = 0 := by simp [len2]
    rw [e1, e2, e3, e4, sub_self, z0] at key
    linarith

/-- **C112** (violated, three dimensions) Length one exactly when the six neighbours agree among themselves; whatever the cell
held. -/
theorem c112_violation_length_3d (thr : ℝ) (phase : Field3) (q : QField3 n) (i j k : ℤ) (h : phase i j k < thr)
    (hq : ∀ i j k, len2 (q i j k) = 1) :
    len2 (pass3 thr phase (plain3 n) (plain3 n) (plain3 n) q i j k) ≤ 1 ∧
    (len2 (pass3 thr phase (plain3 n) (plain3 n) (plain3 n) q i j k) = 1 ↔
      q (i + 1) j k = q (i - 1) j k ∧ q i (j - 1) k = q (i - 1) j k ∧ q i (j + 1) k = q (i - 1) j k ∧
        q i j (k - 1) = q (i - 1) j k ∧ q i j (k + 1) = q (i - 1) j k) := by
  have gen : ∀ a b c d e f p : QVec n, (∀ m, p m = (a m + b m + c m + d m + e m + f m) / 6) → len2 a = 1 → len2 b = 1 → len2 c = 1 →
      len2 d = 1 → len2 e = 1 → len2 f = 1 → len2 p ≤ 1 ∧ (len2 p = 1 ↔ b = a ∧ c = a ∧ d = a ∧ e = a ∧ f = a) := by
    intro a b c d e f p hp ha hb hc hd he hf
    have key : len2 p + 1 / 36 * (len2 (a - b) + len2 (a - c) + len2 (a - d) + len2 (a - e) + len2 (a - f) + len2 (b - c) + len2 (b - d) +
        len2 (b - e) + len2 (b - f) + len2 (c - d) + len2 (c - e) + len2 (c - f) + len2 (d - e) + len2 (d - f) + len2 (e - f)) =
        1 / 6 * (len2 a + len2 b + len2 c + len2 d + len2 e + len2 f) := by
      unfold len2
      simp only [Finset.mul_sum, ← Finset.sum_add_distrib]
      refine Finset.sum_congr rfl fun m _ => ?_
      rw [hp m]
      simp only [Pi.sub_apply]
      ring
    rw [ha, hb, hc, hd, he, hf] at key
    have n1 := len2_nonneg (a - b)
    have n2 := len2_nonneg (a - c)
    have n3 := len2_nonneg (a - d)
    have n4 := len2_nonneg (a - e)
    have n5 := len2_nonneg (a - f)
    have n6 := len2_nonneg (b - c)
    have n7 := len2_nonneg (b - d)
    have n8 := len2_nonneg (b - e)
    have n9 := len2_nonneg (b - f)
    have n10 := len2_nonneg (c - d)
    have n11 := len2_nonneg (c - e)
    have n12 := len2_nonneg (c - f)
    have n13 := len2_nonneg (d - e)
    have n14 := len2_nonneg (d - f)
    have n15 := len2_nonneg (e - f)
    refine ⟨by linarith, fun hz => ?_, fun ⟨e1, e2, e3, e4, e5⟩ => ?_⟩
    · have z : ∀ {a b : QVec n}, len2 (a - b) = 0 → b = a := fun hz => (sub_eq_zero.1 (len2_zero hz)).symm
      exact ⟨z (by linarith), z (by linarith), z (by linarith), z (by linarith), z (by linarith)⟩
    · have : p = a := by
        funext m
        rw [hp m, e1, e2, e3, e4, e5]
        ring
      rw [this, ha]
  exact gen _ _ _ _ _ _ _ (fun m => c112_mean_3d thr phase q i j k m h) (hq _ _ _) (hq _ _ _) (hq _ _ _) (hq _ _ _) (hq _ _ _) (hq _ _ _)

/-! ### Frames -/

/-- **C112** (violated with symmetry) What the neighbour on the right contributes is expressed in that neighbour's description: with
linear rotations the change of the cell is the intended one for the left and lower neighbours and the rotated image of the intended
one for the right and upper neighbours (`Sx'`, `Sy'` undo `Sx`, `Sy`). -/
theorem c112_violation_frame (thr : ℝ) (phase : Field2) (Sx Sy Sx' Sy' : ℤ → ℤ → QVec n → QVec n) (q : QField n) (i j : ℤ)
    (h : phase i j < thr) (hlin : ∀ a b v w, Sx a b (v - w) = Sx a b v - Sx a b w) (hliny : ∀ a b v w, Sy a b (v - w) = Sy a b v - Sy a b w)
    (hx : ∀ a b v, Sx a b (Sx' a b v) = v) (hy : ∀ a b v, Sy a b (Sy' a b v) = v) :
    pass2 thr phase Sx Sy q i j = q i j + (1 / 8 : ℝ) • (Sx i j (q (i - 1) j) - q i j) +
      (1 / 8 : ℝ) • Sx (i + 1) j (Sx' (i + 1) j (q (i + 1) j) - q i j) + (1 / 8 : ℝ) • (Sy i j (q i (j - 1)) - q i j) +
      (1 / 8 : ℝ) • Sy i (j + 1) (Sy' i (j + 1) (q i (j + 1)) - q i j) := by
  rw [hlin, hliny, hx, hy]
  funext m
  unfold pass2 smooth2 qdiffX qdiffY
  rw [if_pos h]
  simp only [Pi.sub_apply, Pi.add_apply, Pi.smul_apply, smul_eq_mul, add_sub_cancel_right]
  norm_num
  ring

/-- **C112** (violated with symmetry) A cell of orientation `q` whose right neighbour has orientation `p` and whose other neighbours
agree with it: stored as `p` the neighbour pulls the cell an eighth of the way towards it; stored as `-p` (the same orientation, the
side then has the rotation that changes the sign) it pushes the cell an eighth of the way off. -/
theorem c112_violation_pushes (thr : ℝ) (phase : Field2) (q p : QVec n) (h : phase 0 0 < thr) (sgn : Bool) :
    pass2 thr phase (fun i _ v => if sgn = true ∧ i = 1 then -v else v) (plain n)
        (fun i _ => if i = 1 then (if sgn then -p else p) else q) 0 0 - p =
      (if sgn then (9 / 8 : ℝ) else 7 / 8) • (q - p) := by
  funext m
  unfold pass2 smooth2 qdiffX qdiffY
  cases sgn
  · simp [h]
    ring
  · simp [h]
    ring

/-- The sign change is one of the 48 rotations of the table: number 5. -/
theorem c112_sign_rotation (v : QVec 4) : rotBy 5 v = -v := by
  have h5 : qr4 5 = ⟨-1, 0, 0, 0⟩ := by
    obtain ⟨w, hw, e, hl⟩ := qr4_eq (i := 5) (by norm_num) (by norm_num)
    have hv' : w = (-1, 0, 0, 0) := by
      have : rawqr4[((5 : ℤ) - 1).toNat]? = some (-1, 0, 0, 0) := by decide
      rw [this] at hl; exact (Option.some.inj hl).symm
    subst hv'
    rw [e, norm4_of_ge (by simp [quatmagsq4, ofInt])]
    ext <;> simp [quatmagsq4, ofInt, smul4]
  have h : quatsymmrotate 4 v 5 = some (-v, 5) := by
    simp only [quatsymmrotate]
    rw [rotate4_pos (by norm_num) (by norm_num), h5]
    simp only [Option.map_some, Option.some.injEq, Prod.mk.injEq, and_true]
    funext m
    fin_cases m <;> simp [ofQ4, toQ4, quatmult4]
  unfold rotBy
  rw [h]
  rfl

/-! ## Fundamental zone -/

/-- Specification: all descriptions of the orientation `q` under the cubic symmetry. -/
def Same (q p : Q4) : Prop := ∃ k : ℤ, 1 ≤ k ∧ k ≤ 48 ∧ p = quatmult4 q (qr4 k)

/-- Specification: `p` is the description of `q` nearest to the reference, and no other description is as near: for unit
orientations, nearest means largest first component. -/
def Nearest (q p : Q4) : Prop := Same q p ∧ ∀ r, Same q r → r ≠ p → r.q1 < p.q1

theorem same_len {q p : Q4} (h : Same q p) (hq : quatmagsq4 q = 1) : quatmagsq4 p = 1 := by
  obtain ⟨k, k1, k2, rfl⟩ := h
  rw [magsq4_mult, qr4_unit k1 k2, hq, mul_one]

/-- The distance to the reference orientation. -/
theorem dist_ref {p : Q4} (hp : quatmagsq4 p = 1) : quatdiffsq4 ⟨1, 0, 0, 0⟩ p = 2 - 2 * p.q1 := by
  have hn : ∀ r : Q4, quatmagsq4 r = 1 → quatnorm4 r = r := by
    intro r hr
    rw [norm4_of_ge (by rw [hr]), hr]
    ext <;> simp [smul4]
  unfold quatdiffsq4
  rw [hn p hp, hn ⟨1, 0, 0, 0⟩ (by simp [quatmagsq4])]
  simp only [quatmagsq4, quatsub4] at hp ⊢
  nlinarith [hp]

/-- Real part of a table rotation other than the identity: at most `1/sqrt 2`. -/
theorem re_table {k : ℤ} (h1 : 1 ≤ k) (h2 : k ≤ 48) : qr4 k = ⟨1, 0, 0, 0⟩ ∨ (qr4 k).q1 ≤ 0 ∨ 2 * (qr4 k).q1 ^ 2 ≤ 1 := by
  obtain ⟨v, hv, e, -⟩ := qr4_eq h1 h2
  have tab : ∀ v ∈ rawqr4, v = (1, 0, 0, 0) ∨ v.1 ≤ 0 ∨ 2 * (v.1 * v.1) ≤ inorm v := by decide
  have hge : (1 : ℝ) ≤ quatmagsq4 (ofInt v) := by rw [magsq_ofInt]; exact_mod_cast raw_norm v hv
  rw [e, norm4_of_ge hge]
  rcases tab v hv with rfl | h | h
  · left
    ext <;> simp [smul4, quatmagsq4, ofInt]
  · right; left
    have : ((ofInt v).q1 : ℝ) ≤ 0 := by simp only [ofInt]; exact_mod_cast h
    simp only [smul4]
    exact mul_nonpos_of_nonneg_of_nonpos (by positivity) this
  · right; right
    have hs : Real.sqrt (quatmagsq4 (ofInt v)) ^ 2 = quatmagsq4 (ofInt v) := Real.sq_sqrt (by linarith)
    have hpos : 0 < quatmagsq4 (ofInt v) := by linarith
    have h' : 2 * ((ofInt v).q1 ^ 2) ≤ quatmagsq4 (ofInt v) := by
      rw [magsq_ofInt]
      have : ((2 * (v.1 * v.1) : ℤ) : ℝ) ≤ (inorm v : ℤ) := by exact_mod_cast h
      simp only [ofInt]
      push_cast at this
      nlinarith
    simp only [smul4]
    rw [mul_pow, div_pow, one_pow, hs, ← mul_assoc, mul_comm (2 : ℝ), mul_assoc, one_div, inv_mul_le_iff₀ hpos, mul_one]
    exact h'

/-- Two different descriptions of one unit orientation: scalar product at most `1/sqrt 2`. -/
theorem two_apart {q p r : Q4} (hq : quatmagsq4 q = 1) (hp : Same q p) (hr : Same q r) (hne : p ≠ r) :
    let s := p.q1 * r.q1 + p.q2 * r.q2 + p.q3 * r.q3 + p.q4 * r.q4
    s ≤ 0 ∨ 2 * s ^ 2 ≤ 1 := by
  intro s
  obtain ⟨a, a1, a2, rfl⟩ := hp
  obtain ⟨b, b1, b2, rfl⟩ := hr
  obtain ⟨hc, e1, e2⟩ := conj4_spec a1 a2
  obtain ⟨l, l1, l2, el⟩ := qr4_closed hc.1 hc.2 b1 b2
  have hb : qr4 b = quatmult4 (qr4 a) (qr4 l) := by
    rw [← el, ← mult4_assoc, e1]
    ext <;> simp [quatmult4]
  have hs : s = (qr4 l).q1 := by
    have hA := qr4_unit a1 a2
    have : s = quatmagsq4 q * quatmagsq4 (qr4 a) * (qr4 l).q1 := by
      show (quatmult4 q (qr4 a)).q1 * (quatmult4 q (qr4 b)).q1 + (quatmult4 q (qr4 a)).q2 * (quatmult4 q (qr4 b)).q2 +
        (quatmult4 q (qr4 a)).q3 * (quatmult4 q (qr4 b)).q3 + (quatmult4 q (qr4 a)).q4 * (quatmult4 q (qr4 b)).q4 = _
      rw [hb]
      simp only [quatmult4, quatmagsq4]
      ring
    rw [this, hq, hA]
    ring
  rcases re_table l1 l2 with h | h | h
  · exfalso
    apply hne
    rw [hb, h, mult4_one]
  · left; rw [hs]; exact h
  · right; rw [hs]; exact h

theorem thr4_eq : thr4 = 2 - 2 * Real.cos (Real.pi / 8) := by
  unfold thr4
  have h : Real.cos (Real.pi / 8) = 1 - 2 * Real.sin (Real.pi / 16) ^ 2 := by
    rw [show Real.pi / 8 = 2 * (Real.pi / 16) by ring, Real.cos_two_mul, Real.cos_sq']
    ring
  rw [h]
  ring

/-- **C112** Bringing an orientation to the fundamental zone (quaternions): the result is a description of the same orientation, of
the same length. -/
theorem c112_fundamental_same (v w : QVec 4) (h : fundamental 4 v = some w) :
    Same (toQ4 v) (toQ4 w) ∧ lenSq (toQ4 w) = lenSq (toQ4 v) := by
  simp only [fundamental, quatfindsymm, Option.map_some, Option.some.injEq] at h
  generalize hf : quatfindsymm4 (toQ4 (reference 4)) (toQ4 v) 1 = r at h
  obtain ⟨p, k⟩ := r
  obtain ⟨⟨k1, k2⟩, hk, -⟩ := c15_search4 _ _ _ _ _ hf
  have hp : toQ4 w = p := by
    rw [← h]
    ext <;> simp [toQ4, ofQ4]
  rw [hp]
  refine ⟨⟨k, k1, k2, ?_⟩, c14_length _ _ _ _ hk⟩
  rw [rotate4_pos k1 k2] at hk
  simp only [Option.some.injEq, Prod.mk.injEq] at hk
  exact hk.1.symm

/-- **C112** It never fails for the three kinds of orientation, and stops the program for any other number of components. -/
theorem c112_fundamental_defined (m : ℕ) (v : QVec m) : fundamental m v = none ↔ m ≠ 1 ∧ m ≠ 2 ∧ m ≠ 4 := by
  match m, v with
  | 0, v => simp [fundamental, quatfindsymm]
  | 1, v => simp [fundamental, quatfindsymm]
  | 2, v => simp [fundamental, quatfindsymm]
  | 3, v => simp [fundamental, quatfindsymm]
  | 4, v => simp [fundamental, quatfindsymm]
  | (m + 5), v => simp [fundamental, quatfindsymm]

/-- **C112** If one description of a unit orientation is nearer to the reference than all others, that one is found, although the
search stops at the first description below its threshold. -/
theorem c112_fundamental_nearest (v w : QVec 4) (p : Q4) (hv : lenSq (toQ4 v) = 1) (hp : Nearest (toQ4 v) p)
    (h : fundamental 4 v = some w) : toQ4 w = p := by
  have hv' : quatmagsq4 (toQ4 v) = 1 := by rw [← lenSq_eq]; exact hv
  simp only [fundamental, quatfindsymm, Option.map_some, Option.some.injEq] at h
  generalize hf : quatfindsymm4 (toQ4 (reference 4)) (toQ4 v) 1 = r at h
  obtain ⟨x, k⟩ := r
  have href : toQ4 (reference 4) = ⟨1, 0, 0, 0⟩ := by ext <;> simp [toQ4, reference]
  rw [href] at hf
  obtain ⟨⟨k1, k2⟩, hk, -, -, hmin⟩ := c15_search4 _ _ _ _ _ hf
  have hx : toQ4 w = x := by
    rw [← h]
    ext <;> simp [toQ4, ofQ4]
  rw [hx]
  rw [rotate4_pos k1 k2] at hk
  simp only [Option.some.injEq, Prod.mk.injEq] at hk
  have hs : Same (toQ4 v) x := ⟨k, k1, k2, hk.1.symm⟩
  have hxu := same_len hs hv'
  have hpu := same_len hp.1 hv'
  by_contra hne
  have hlt := hp.2 x hs hne
  rcases hmin with hthr | hall
  · rw [dist_ref hxu, thr4_eq] at hthr
    have hc : Real.cos (Real.pi / 8) ≤ x.q1 := by linarith
    have hcp : 0 < Real.cos (Real.pi / 8) := Real.cos_pos_of_mem_Ioo ⟨by linarith [Real.pi_pos], by linarith [Real.pi_pos]⟩
    have hc2 : 2 * Real.cos (Real.pi / 8) ^ 2 - 1 = Real.sqrt 2 / 2 := by
      rw [← Real.cos_pi_div_four, show Real.pi / 4 = 2 * (Real.pi / 8) by ring, Real.cos_two_mul]
    set c := Real.cos (Real.pi / 8)
    have hs2 : Real.sqrt 2 ^ 2 = 2 := Real.sq_sqrt (by norm_num)
    have hs0 : 0 < Real.sqrt 2 := Real.sqrt_pos.2 (by norm_num)
    set s := x.q1 * p.q1 + x.q2 * p.q2 + x.q3 * p.q3 + x.q4 * p.q4 with hsdef
    -- the scalar product is above 1/sqrt 2
    have hbig : Real.sqrt 2 / 2 < s := by
      simp only [quatmagsq4] at hxu hpu
      have cs : (x.q2 * p.q2 + x.q3 * p.q3 + x.q4 * p.q4) ^ 2 ≤ (1 - x.q1 ^ 2) * (1 - p.q1 ^ 2) := by
        have e1 : 1 - x.q1 ^ 2 = x.q2 ^ 2 + x.q3 ^ 2 + x.q4 ^ 2 := by linarith
        have e2 : 1 - p.q1 ^ 2 = p.q2 ^ 2 + p.q3 ^ 2 + p.q4 ^ 2 := by linarith
        rw [e1, e2]
        nlinarith [sq_nonneg (x.q2 * p.q3 - x.q3 * p.q2), sq_nonneg (x.q2 * p.q4 - x.q4 * p.q2), sq_nonneg (x.q3 * p.q4 - x.q4 * p.q3)]
      have hx1 : x.q1 ^ 2 ≤ 1 := by nlinarith [sq_nonneg x.q2, sq_nonneg x.q3, sq_nonneg x.q4]
      have hp1 : p.q1 ^ 2 ≤ 1 := by nlinarith [sq_nonneg p.q2, sq_nonneg p.q3, sq_nonneg p.q4]
      have hcc : c ^ 2 ≤ x.q1 ^ 2 := pow_le_pow_left₀ hcp.le hc 2
      have hcc' : c ^ 2 < p.q1 ^ 2 := pow_lt_pow_left₀ (by linarith) hcp.le (by norm_num)
      have h1c : 0 < 1 - c ^ 2 := by linarith
      have hbound : (1 - x.q1 ^ 2) * (1 - p.q1 ^ 2) ≤ (1 - c ^ 2) ^ 2 := by
        have a := mul_le_mul (show 1 - x.q1 ^ 2 ≤ 1 - c ^ 2 by linarith) (show 1 - p.q1 ^ 2 ≤ 1 - c ^ 2 by linarith) (by linarith) h1c.le
        nlinarith
      have hab : -(1 - c ^ 2) ≤ x.q2 * p.q2 + x.q3 * p.q3 + x.q4 * p.q4 := by
        have := abs_le_of_sq_le_sq' (cs.trans hbound) h1c.le
        exact this.1
      have hprod : c * c < x.q1 * p.q1 := by
        have : c * c ≤ x.q1 * c := mul_le_mul_of_nonneg_right hc hcp.le
        have : x.q1 * c < x.q1 * p.q1 := mul_lt_mul_of_pos_left (by linarith) (by linarith)
        linarith
      nlinarith
    rcases two_apart hv' hs hp.1 hne with h0 | h0
    · change s ≤ 0 at h0
      linarith
    · change 2 * s ^ 2 ≤ 1 at h0
      nlinarith
  · obtain ⟨l, l1, l2, el⟩ := hp.1
    have := hall l p (by rw [rotate4_pos l1 l2, ← el])
    rw [dist_ref hxu, dist_ref hpu] at this
    linarith

/-- **C112** Two cells that hold different descriptions of one orientation hold the same numbers afterwards (when the nearest
description is unique). -/
theorem c112_fundamental_unique (v v' w w' : QVec 4) (p : Q4) (hv : lenSq (toQ4 v) = 1) (hvv : Same (toQ4 v) (toQ4 v'))
    (hp : Nearest (toQ4 v) p) (h : fundamental 4 v = some w) (h' : fundamental 4 v' = some w') : w = w' := by
  have hq : quatmagsq4 (toQ4 v) = 1 := by rw [← lenSq_eq]; exact hv
  have hv' : lenSq (toQ4 v') = 1 := by rw [lenSq_eq]; exact same_len hvv hq
  obtain ⟨a, a1, a2, ea⟩ := hvv
  obtain ⟨hc, e1, e2⟩ := conj4_spec a1 a2
  have orb : ∀ r, Same (toQ4 v') r ↔ Same (toQ4 v) r := by
    intro r
    constructor
    · rintro ⟨b, b1, b2, rfl⟩
      obtain ⟨l, l1, l2, el⟩ := qr4_closed a1 a2 b1 b2
      exact ⟨l, l1, l2, by rw [ea, mult4_assoc, el]⟩
    · rintro ⟨b, b1, b2, rfl⟩
      obtain ⟨l, l1, l2, el⟩ := qr4_closed hc.1 hc.2 b1 b2
      refine ⟨l, l1, l2, ?_⟩
      rw [ea, mult4_assoc, ← el, ← mult4_assoc (qr4 a), e1]
      congr 1
      ext <;> simp [quatmult4]
  have hp' : Nearest (toQ4 v') p := ⟨(orb p).2 hp.1, fun r hr => hp.2 r ((orb r).1 hr)⟩
  have e : toQ4 w = toQ4 w' := by
    rw [c112_fundamental_nearest v w p hv hp h, c112_fundamental_nearest v' w' p hv' hp' h']
  funext m
  have := congrArg (fun q => ofQ4 q m) e
  fin_cases m <;> simpa [ofQ4, toQ4] using this

/-- **C112** Doing it twice changes nothing more (same condition). -/
theorem c112_fundamental_idempotent (v w : QVec 4) (p : Q4) (hv : lenSq (toQ4 v) = 1) (hp : Nearest (toQ4 v) p)
    (h : fundamental 4 v = some w) : fundamental 4 w = some w := by
  cases hw : fundamental 4 w with
  | none => exact absurd ((c112_fundamental_defined 4 w).1 hw).2.2 (by simp)
  | some w' =>
    rw [c112_fundamental_unique v w w w' p hv (c112_fundamental_same v w h).1 hp h hw]

/-- Concrete case: each of the 48 descriptions of the unrotated crystal, for example the one stored as `(-1, 0, 0, 0)`, has the
reference itself as the nearest one, and becomes the reference. -/
theorem c112_fundamental_reference (k : ℤ) (k1 : 1 ≤ k) (k2 : k ≤ 48) : fundamental 4 (ofQ4 (qr4 k)) = some ![1, 0, 0, 0] := by
  have ht : toQ4 (ofQ4 (qr4 k)) = qr4 k := by ext <;> simp [toQ4, ofQ4]
  have hu : quatmagsq4 (qr4 k) = 1 := qr4_unit k1 k2
  have hl : lenSq (toQ4 (ofQ4 (qr4 k))) = 1 := by rw [ht, lenSq_eq, hu]
  have hn : Nearest (toQ4 (ofQ4 (qr4 k))) ⟨1, 0, 0, 0⟩ := by
    rw [ht]
    obtain ⟨hc, e1, -⟩ := conj4_spec k1 k2
    refine ⟨⟨_, hc.1, hc.2, e1.symm⟩, fun r hr hne => ?_⟩
    have hru := same_len hr hu
    simp only [quatmagsq4] at hru
    by_contra hge
    rw [not_lt] at hge
    apply hne
    have h0 : r.q2 = 0 := by nlinarith [mul_self_nonneg r.q2, mul_self_nonneg r.q3, mul_self_nonneg r.q4]
    have h1 : r.q3 = 0 := by nlinarith [mul_self_nonneg r.q2, mul_self_nonneg r.q3, mul_self_nonneg r.q4]
    have h2 : r.q4 = 0 := by nlinarith [mul_self_nonneg r.q2, mul_self_nonneg r.q3, mul_self_nonneg r.q4]
    have h3 : r.q1 = 1 := by nlinarith [mul_self_nonneg r.q2, mul_self_nonneg r.q3, mul_self_nonneg r.q4]
    ext
    · exact h3
    · exact h0
    · exact h1
    · exact h2
  cases hw : fundamental 4 (ofQ4 (qr4 k)) with
  | none => exact absurd ((c112_fundamental_defined 4 _).1 hw).2.2 (by simp)
  | some w =>
    have e := c112_fundamental_nearest _ w _ hl hn hw
    congr 1
    funext m
    have := congrArg (fun q => ofQ4 q m) e
    fin_cases m <;> simpa [ofQ4, toQ4] using this

/-! ## Decision -/

/-- **C112** The orientations are reset exactly if fewer grains were counted than at the last step, or the interval is due; the
count is then remembered.  (`none`: undefined behaviour inside the interval object.) -/
theorem c112_reset_iff (w w' : Watch) (cycle : ℤ) (t : ℝ) (b : Bool) (h : decision cycle t w = some (w', b)) :
    w'.seen = w.count ∧ w'.count = w.count ∧
    (b = true ↔ w.count < w.seen ∨ (AMPE.EventInterval.hasIntervalPassed w.ext cycle t).map (·.2) = some true ∧ w.seen ≤ w.count) := by
  unfold decision at h
  by_cases hle : w.seen ≤ w.count
  · rw [if_pos hle, Option.map_eq_some_iff] at h
    obtain ⟨r, hr, he⟩ := h
    simp only [Prod.mk.injEq] at he
    obtain ⟨rfl, rfl⟩ := he
    refine ⟨rfl, rfl, ?_⟩
    dsimp only at hr
    rw [hr]
    simp only [Option.map_some, Option.some.injEq]
    constructor
    · intro hb; exact Or.inr ⟨hb, hle⟩
    · rintro (hb | hb)
      · omega
      · exact hb.1
  · rw [if_neg hle] at h
    simp only [Option.some.injEq, Prod.mk.injEq] at h
    obtain ⟨rfl, rfl⟩ := h
    exact ⟨rfl, rfl, ⟨fun _ => Or.inl (by omega), fun _ => rfl⟩⟩

/-- **C112** The first step of a fresh run always resets the orientations, whether or not grains were counted before. -/
theorem c112_first_step (ext : AMPE.EventInterval.State) (cycle : ℤ) (t : ℝ) (k : Option ℕ) (hk : ∀ m ∈ k, (m : ℤ) < intMax) :
    ∃ w, decision cycle t (match k with | none => startWatch false ext | some m => counted m (startWatch false ext)) = some (w, true) := by
  cases k with
  | none => exact ⟨_, by simp [decision, startWatch, intMax]; rfl⟩
  | some m =>
    have := hk m rfl
    exact ⟨_, if_neg (by simp only [counted, startWatch, Bool.false_eq_true, if_false]; omega)⟩

/-- **C112** (violated) The first step of a restarted run takes no notice of a grain that has disappeared: it resets only if the
interval is due. -/
theorem c112_violation_restart (ext : AMPE.EventInterval.State) (cycle : ℤ) (t : ℝ) (k : ℕ) :
    (decision cycle t (counted k (startWatch true ext))).map (·.2) =
      (AMPE.EventInterval.hasIntervalPassed ext cycle t).map (·.2) := by
  unfold decision
  rw [if_pos (by simp only [counted, startWatch, if_true]; omega)]
  simp only [Option.map_map]
  rfl

/-- **C112** (violated) Without grain diagnostics the count never changes: from the second step on only the interval decides. -/
theorem c112_violation_never_counted (w w' w'' : Watch) (c c' : ℤ) (t t' : ℝ) (b b' : Bool) (h : decision c t w = some (w', b))
    (h' : decision c' t' w' = some (w'', b')) :
    (AMPE.EventInterval.hasIntervalPassed w'.ext c' t').map (·.2) = some b' := by
  obtain ⟨h1, h2, -⟩ := c112_reset_iff w w' c t b h
  unfold decision at h'
  rw [if_pos (by show w'.seen ≤ w'.count; omega), Option.map_eq_some_iff] at h'
  obtain ⟨r, hr, he⟩ := h'
  simp only [Prod.mk.injEq] at he
  dsimp only at hr
  rw [hr, ← he.2]
  rfl

/-- **C112** A reset because of a lost grain does not use up the interval: its state is what it was. -/
theorem c112_interval_kept (w : Watch) (cycle : ℤ) (t : ℝ) (h : w.count < w.seen) :
    decision cycle t w = some ({ w with seen := w.count }, true) := by
  unfold decision
  rw [if_neg (by show ¬ w.seen ≤ w.count; omega)]

/-- Concrete run: three grains, then two: reset although the interval (every 100 steps) is not due. -/
example (ext : AMPE.EventInterval.State) : decision 7 1 (counted 2 ⟨3, 3, ext⟩) = some (⟨2, 2, ext⟩, true) := by
  rw [c112_interval_kept]
  · rfl
  · show (2 : ℤ) < 3
    norm_num

/-! ## Relaxation -/

/-- The states passed through by the relaxation, with the energy before each step. -/
noncomputable def path {σ : Type} (adv : σ → Relaxed σ) (qint : ℝ) (s : σ) : ℕ → ℝ × σ
  | 0 => (qint, s)
  | k + 1 => ((adv (path adv qint s k).2).qintE, (adv (path adv qint s k).2).state)

theorem path_shift {σ : Type} (adv : σ → Relaxed σ) (qint : ℝ) (s : σ) (k : ℕ) :
    path adv (adv s).qintE (adv s).state k = path adv qint s (k + 1) := by
  induction k with
  | zero => rfl
  | succ k ih => rw [path, ih]; rfl

theorem relaxLoop_spec {σ : Type} (adv : σ → Relaxed σ) (orig : ℝ) (k : ℕ) : ∀ (qint : ℝ) (s : σ),
    ∃ c ≤ k, relaxLoop adv orig k qint s = ((path adv qint s c).2, c) ∧
      (∀ a, a + 1 < c → ¬ stops orig (path adv qint s a).1 (adv (path adv qint s a).2)) ∧
      (c = k ∨ ∃ a, c = a + 1 ∧ stops orig (path adv qint s a).1 (adv (path adv qint s a).2)) := by
  induction k with
  | zero => intro qint s; exact ⟨0, le_rfl, rfl, fun a ha => absurd ha (by omega), Or.inl rfl⟩
  | succ k ih =>
    intro qint s
    by_cases hst : stops orig qint (adv s)
    · refine ⟨1, by omega, ?_, fun a ha => absurd ha (by omega), Or.inr ⟨0, rfl, hst⟩⟩
      unfold relaxLoop
      simp only [if_pos hst]
      rfl
    · obtain ⟨c, hc, he, hno, hend⟩ := ih (adv s).qintE (adv s).state
      refine ⟨c + 1, by omega, ?_, fun a ha => ?_, ?_⟩
      · unfold relaxLoop
        simp only [if_neg hst, he]
        rw [path_shift adv qint s c]
      · cases a with
        | zero => exact hst
        | succ a =>
          have := hno a (by omega)
          rw [path_shift] at this
          exact this
      · rcases hend with rfl | ⟨a, rfl, ha⟩
        · exact Or.inl rfl
        · rw [path_shift] at ha
          exact Or.inr ⟨a + 1, rfl, ha⟩

/-- **C112** The relaxation ends after the first step that meets the stopping test, and in any case after 199 steps; the state left
is that of the last step. -/
theorem c112_relax {σ : Type} (adv : σ → Relaxed σ) (orig qint : ℝ) (s : σ) :
    ∃ c ≤ 199, relax adv orig qint s = ((path adv qint s c).2, c) ∧
      (∀ a, a + 1 < c → ¬ stops orig (path adv qint s a).1 (adv (path adv qint s a).2)) ∧
      (c = 199 ∨ ∃ a, c = a + 1 ∧ stops orig (path adv qint s a).1 (adv (path adv qint s a).2)) :=
  relaxLoop_spec adv orig 199 qint s

/-- **C112** (violated) The test compares with the phase energy: if that is not positive no relaxation ever counts as converged,
even one in which nothing changes: all 199 steps are made. -/
theorem c112_violation_relax_no_interface {σ : Type} (adv : σ → Relaxed σ) (orig qint : ℝ) (s : σ)
    (h : ∀ s, (adv s).phaseE * (adv s).dt ≤ 0) : (relax adv orig qint s).2 = 199 := by
  obtain ⟨c, -, he, -, hend⟩ := c112_relax adv orig qint s
  rw [he]
  rcases hend with rfl | ⟨a, -, ha⟩
  · rfl
  · exfalso
    have h1 := ha.1
    have h2 := h (path adv qint s a).2
    have h3 := abs_nonneg ((path adv qint s a).1 - (adv (path adv qint s a).2).qintE)
    nlinarith

end AMPE.Smoothing.Props
