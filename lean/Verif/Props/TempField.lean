import Verif.Model.Thermal
import Mathlib.Algebra.Order.Archimedean.Real.Basic
import Mathlib.Tactic.Linarith
import Mathlib.Tactic.Ring
import Mathlib.Tactic.NormNum
import Mathlib.Tactic.Positivity
import Mathlib.Tactic.FieldSimp
import Mathlib.Tactic.LinearCombination

/-!
# Imposed temperature fields: C69 (Gaussian profile), C70 (frozen gradient), C71 (heat sources)
-/

namespace AMPE.Thermal.Props

open AMPE.Thermal

/-! ## C69: Gaussian temperature profile -/

/-- Specification: distance on a circle of length `ll`. -/
def IsTorusDist (ll d r : ℝ) : Prop := IsLeast (Set.range fun k : ℤ => |d + k * ll|) r

/-- **C69**: along a periodic axis the distance used is the distance to the nearest periodic image of the centre, as long as
the point is not more than one and a half periods away. -/
theorem c69_min_image (ll x c : ℝ) (hl : 0 < ll) (h : |x - c| ≤ 3 / 2 * ll) : IsTorusDist ll (x - c) (axisDist ll x c) := by
  unfold axisDist
  simp only [hl, if_true]
  generalize x - c = d at *
  rw [abs_le] at h
  constructor
  · rcases min_choice (min |d| |d + ll|) |d - ll| with e | e
    · rcases min_choice |d| |d + ll| with e' | e'
      · rw [e, e']; exact ⟨0, by simp⟩
      · rw [e, e']; exact ⟨1, by simp⟩
    · rw [e]; exact ⟨-1, by simp [sub_eq_add_neg]⟩
  · rintro y ⟨k, rfl⟩
    simp only
    have m1 : min (min |d| |d + ll|) |d - ll| ≤ |d| := le_trans (min_le_left _ _) (min_le_left _ _)
    have m2 : min (min |d| |d + ll|) |d - ll| ≤ |d + ll| := le_trans (min_le_left _ _) (min_le_right _ _)
    have m3 : min (min |d| |d + ll|) |d - ll| ≤ |d - ll| := min_le_right _ _
    by_cases hk : k = 0 ∨ k = 1 ∨ k = -1
    · rcases hk with rfl | rfl | rfl
      · simpa using m1
      · simpa using m2
      · simpa [sub_eq_add_neg] using m3
    · have hh : min (min |d| |d + ll|) |d - ll| ≤ ll / 2 := by
        by_cases a : d < -(ll / 2)
        · exact le_trans m2 (abs_le.mpr ⟨by linarith, by linarith⟩)
        · by_cases b : ll / 2 < d
          · exact le_trans m3 (abs_le.mpr ⟨by linarith, by linarith⟩)
          · exact le_trans m1 (abs_le.mpr ⟨by linarith, by linarith⟩)
      have : 2 ≤ k ∨ k ≤ -2 := by omega
      rcases this with hk | hk
      · have hk' : (2 : ℝ) ≤ k := by exact_mod_cast hk
        refine le_trans hh (le_trans ?_ (le_abs_self _))
        nlinarith
      · have hk' : (k : ℝ) ≤ -2 := by exact_mod_cast hk
        refine le_trans hh (le_trans ?_ (neg_le_abs _))
        nlinarith

theorem torus_unique {ll d r r' : ℝ} (h : IsTorusDist ll d r) (h' : IsTorusDist ll d r') : r = r' := h.unique h'

theorem torus_shift {ll d r : ℝ} (h : IsTorusDist ll d r) : IsTorusDist ll (d + ll) r := by
  constructor
  · obtain ⟨k, hk⟩ := h.1
    exact ⟨k - 1, by simp only at hk ⊢; rw [← hk]; push_cast; ring_nf⟩
  · rintro y ⟨k, rfl⟩
    exact h.2 ⟨k + 1, by simp only; push_cast; ring_nf⟩

/-- **C69**: the profile is periodic: a ghost cell beyond one end of the domain has the temperature of the cell at the other
end, for all ghost widths up to half the domain. -/
theorem c69_periodic (low up g x c : ℝ) (hlu : low < up) (hg : g ≤ (up - low) / 2) (hc : low ≤ c ∧ c ≤ up)
    (hx : low - g ≤ x ∧ x ≤ up + g) (hx' : low - g ≤ x + (up - low) ∧ x + (up - low) ≤ up + g) :
    axisDist (up - low) (x + (up - low)) c = axisDist (up - low) x c := by
  have hl : 0 < up - low := by linarith
  have h1 := c69_min_image (up - low) x c hl (abs_le.mpr ⟨by linarith, by linarith⟩)
  have h2 := c69_min_image (up - low) (x + (up - low)) c hl (abs_le.mpr ⟨by linarith, by linarith⟩)
  refine torus_unique (d := x + (up - low) - c) h2 ?_
  have := torus_shift h1
  rwa [show x - c + (up - low) = x + (up - low) - c by ring] at this

/-- **C69**: along a non-periodic axis the distance is the plain one. -/
theorem c69_nonperiodic (x c : ℝ) : axisDist (-1) x c = |x - c| := by unfold axisDist; norm_num

theorem loopUp_spec {low ll c d : ℝ} (h : LoopUp low ll c d) :
    low ≤ d ∧ (∃ k : ℕ, d = c + k * ll) ∧ (d = c ∨ d < low + ll) := by
  induction h with
  | done hc => exact ⟨not_lt.mp hc, ⟨0, by simp⟩, Or.inl rfl⟩
  | @step c d hc _ ih =>
    obtain ⟨h1, ⟨k, hk⟩, h3⟩ := ih
    refine ⟨h1, ⟨k + 1, by rw [hk]; push_cast; ring⟩, Or.inr ?_⟩
    rcases h3 with h3 | h3
    · rw [h3]; linarith
    · exact h3

theorem loopUp_exists (low ll : ℝ) (hl : 0 < ll) (c : ℝ) : ∃ d, LoopUp low ll c d := by
  obtain ⟨n, hn⟩ := exists_nat_gt ((low - c) / ll)
  rw [div_lt_iff₀ hl] at hn
  induction n generalizing c with
  | zero => exact ⟨c, .done (by push_cast at hn; linarith)⟩
  | succ n ih =>
    by_cases hc : c < low
    · obtain ⟨d, hd⟩ := ih (c + ll) (by push_cast at hn; linarith)
      exact ⟨d, .step hc hd⟩
    · exact ⟨c, .done hc⟩

theorem loopUp_unique {low ll c d d' : ℝ} (h : LoopUp low ll c d) (h' : LoopUp low ll c d') : d = d' := by
  induction h with
  | done hc => cases h' with
    | done _ => rfl
    | step hc' _ => exact absurd hc' hc
  | step hc _ ih => cases h' with
    | done hc' => exact absurd hc hc'
    | step _ h => exact ih h

theorem loopDown_spec {up ll c d : ℝ} (h : LoopDown up ll c d) :
    d ≤ up ∧ (∃ k : ℕ, d = c - k * ll) ∧ (d = c ∨ up - ll < d) := by
  induction h with
  | done hc => exact ⟨not_lt.mp hc, ⟨0, by simp⟩, Or.inl rfl⟩
  | @step c d hc _ ih =>
    obtain ⟨h1, ⟨k, hk⟩, h3⟩ := ih
    refine ⟨h1, ⟨k + 1, by rw [hk]; push_cast; ring⟩, Or.inr ?_⟩
    rcases h3 with h3 | h3
    · rw [h3]; linarith
    · exact h3

theorem loopDown_exists (up ll : ℝ) (hl : 0 < ll) (c : ℝ) : ∃ d, LoopDown up ll c d := by
  obtain ⟨n, hn⟩ := exists_nat_gt ((c - up) / ll)
  rw [div_lt_iff₀ hl] at hn
  induction n generalizing c with
  | zero => exact ⟨c, .done (by push_cast at hn; linarith)⟩
  | succ n ih =>
    by_cases hc : up < c
    · obtain ⟨d, hd⟩ := ih (c - ll) (by push_cast at hn; linarith)
      exact ⟨d, .step hc hd⟩
    · exact ⟨c, .done hc⟩

theorem loopDown_unique {up ll c d d' : ℝ} (h : LoopDown up ll c d) (h' : LoopDown up ll c d') : d = d' := by
  induction h with
  | done hc => cases h' with
    | done _ => rfl
    | step hc' _ => exact absurd hc' hc
  | step hc _ ih => cases h' with
    | done hc' => exact absurd hc hc'
    | step _ h => exact ih h

/-- **C69**: wherever the moving centre is, the two loops terminate with one result, which lies in the domain and differs from
the centre by a whole number of periods; a centre in the domain is left alone. -/
theorem c69_center (low up : ℝ) (h : low < up) (c : ℝ) :
    (∃! d, CenterWrap low up c d) ∧
    ∀ d, CenterWrap low up c d → low ≤ d ∧ d ≤ up ∧ (∃ k : ℤ, d = c + k * (up - low)) ∧ (low ≤ c ∧ c ≤ up → d = c) := by
  have hl : 0 < up - low := by linarith
  constructor
  · obtain ⟨e, he⟩ := loopUp_exists low (up - low) hl c
    obtain ⟨d, hd⟩ := loopDown_exists up (up - low) hl e
    refine ⟨d, ⟨e, he, hd⟩, ?_⟩
    rintro d' ⟨e', he', hd'⟩
    rw [loopUp_unique he' he] at hd'
    exact loopDown_unique hd' hd
  · rintro d ⟨e, he, hd⟩
    obtain ⟨a1, ⟨k, a2⟩, -⟩ := loopUp_spec he
    obtain ⟨b1, ⟨j, b2⟩, b3⟩ := loopDown_spec hd
    refine ⟨?_, b1, ⟨(k : ℤ) - j, ?_⟩, ?_⟩
    · rcases b3 with b3 | b3
      · rw [b3]; exact a1
      · linarith
    · rw [b2, a2]; push_cast; ring
    · rintro ⟨h1, h2⟩
      have : e = c := loopUp_unique he (.done (not_lt.mpr h1))
      rw [this] at hd
      exact loopDown_unique hd (.done (not_lt.mpr h2))

/-- **C69**: temperatures lie between the base and the peak, the peak being reached at the centre. -/
theorem c69_bounds (base peak sd l0 l1 c0 c1 x y : ℝ) (h : base ≤ peak) :
    base ≤ gauss2 base peak sd l0 l1 c0 c1 x y ∧ gauss2 base peak sd l0 l1 c0 c1 x y ≤ peak ∧
    gauss2 base peak sd l0 l1 c0 c1 c0 c1 = peak := by
  have hz : ∀ l c, axisDist l c c = 0 := by
    intro l c
    unfold axisDist
    simp
  have hf : 0 ≤ 1 / (2 * sd * sd) := by
    have : 0 ≤ 2 * sd * sd := by nlinarith [mul_self_nonneg sd]
    positivity
  unfold gauss2
  simp only [hz]
  have hd : 0 ≤ peak - base := by linarith
  have hr : 0 ≤ axisDist l0 x c0 ^ 2 + axisDist l1 y c1 ^ 2 := by positivity
  generalize axisDist l0 x c0 ^ 2 + axisDist l1 y c1 ^ 2 = r at *
  have he : Real.exp (-r * (1 / (2 * sd * sd))) ≤ 1 := Real.exp_le_one_iff.mpr (by nlinarith)
  have hp := Real.exp_pos (-r * (1 / (2 * sd * sd)))
  generalize Real.exp (-r * (1 / (2 * sd * sd))) = ex at *
  refine ⟨by nlinarith, by nlinarith, by simp⟩

/-- **C69**: same bounds in 3D. -/
theorem c69_bounds_3d (base peak sd l0 l1 l2 c0 c1 c2 x y z : ℝ) (h : base ≤ peak) :
    base ≤ gauss3 base peak sd l0 l1 l2 c0 c1 c2 x y z ∧ gauss3 base peak sd l0 l1 l2 c0 c1 c2 x y z ≤ peak ∧
    gauss3 base peak sd l0 l1 l2 c0 c1 c2 c0 c1 c2 = peak := by
  have hz : ∀ l c, axisDist l c c = 0 := by
    intro l c
    unfold axisDist
    simp
  have hf : 0 ≤ 1 / (2 * sd * sd) := by
    have : 0 ≤ 2 * sd * sd := by nlinarith [mul_self_nonneg sd]
    positivity
  unfold gauss3
  simp only [hz]
  have hd : 0 ≤ peak - base := by linarith
  have hr : 0 ≤ axisDist l0 x c0 ^ 2 + axisDist l1 y c1 ^ 2 + axisDist l2 z c2 ^ 2 := by positivity
  generalize axisDist l0 x c0 ^ 2 + axisDist l1 y c1 ^ 2 + axisDist l2 z c2 ^ 2 = r at *
  have he : Real.exp (-r * (1 / (2 * sd * sd))) ≤ 1 := Real.exp_le_one_iff.mpr (by nlinarith)
  have hp := Real.exp_pos (-r * (1 / (2 * sd * sd)))
  generalize Real.exp (-r * (1 / (2 * sd * sd))) = ex at *
  refine ⟨by nlinarith, by nlinarith, by simp⟩

/-- **C69**: the profile is a Gaussian of the given width: at one standard deviation from the centre the excess is `e^(-1/2)`
of the peak, in any direction. -/
theorem c69_width (base peak sd c0 c1 u v : ℝ) (hs : sd ≠ 0) (hu : u ^ 2 + v ^ 2 = 1) :
    gauss2 base peak sd (-1) (-1) c0 c1 (c0 + sd * u) (c1 + sd * v) = base + (peak - base) * Real.exp (-(1 / 2)) := by
  unfold gauss2
  simp only [c69_nonperiodic, sq_abs]
  congr 3
  have : (c0 + sd * u - c0) ^ 2 + (c1 + sd * v - c1) ^ 2 = sd * sd := by linear_combination sd ^ 2 * hu
  rw [this]
  field_simp

/-- **C69**: the value of a cell depends on where the cell is, not on the patch it is computed for (`xlo` of a patch is the
position of its first cell): ghost cells agree with the interior cells of neighbours. -/
theorem c69_patch_independent (x0 dx : ℝ) (f f' i : ℤ) :
    cellCenter (x0 + dx * f) dx f i = cellCenter (x0 + dx * f') dx f' i := by
  unfold cellCenter
  push_cast
  ring

/-- **C69**: the peak follows the ramp and stays at the target once reached. -/
theorem c69_peak (initial rate target time : ℝ) (h0 : 0 ≤ time) (hr : 0 < rate) (ht : initial ≤ target) :
    peakAt initial rate target time = min (initial + rate * time) target ∧
    initial ≤ peakAt initial rate target time ∧ peakAt initial rate target time ≤ target := by
  have e : peakAt initial rate target time = min (initial + rate * time) target := by
    unfold peakAt
    simp only [not_lt.mpr hr.le, false_and, if_false, hr, true_and]
    split
    · rename_i h; rw [min_eq_right h.le]
    · rename_i h; rw [min_eq_left (not_lt.mp h)]
  have : 0 ≤ rate * time := by positivity
  rw [e]
  exact ⟨rfl, le_min (by linarith) ht, min_le_right _ _⟩

/-- **C69**: likewise on cooling. -/
theorem c69_peak_cooling (initial rate target time : ℝ) (h0 : 0 ≤ time) (hr : rate < 0) (ht : target ≤ initial) :
    peakAt initial rate target time = max (initial + rate * time) target ∧
    target ≤ peakAt initial rate target time ∧ peakAt initial rate target time ≤ initial := by
  have e : peakAt initial rate target time = max (initial + rate * time) target := by
    unfold peakAt
    simp only [hr, true_and, not_lt.mpr hr.le, false_and, if_false]
    split
    · rename_i h; rw [max_eq_right h.le]
    · rename_i h; rw [max_eq_left (not_lt.mp h)]
  have : rate * time ≤ 0 := by nlinarith
  rw [e]
  exact ⟨rfl, le_max_right _ _, max_le (by linarith) ht⟩

/-- **C69** (partial): with a changing peak temperature, the field in memory is that of the last time asked for. -/
theorem c69_follows_partial {α : Type} (rate : ℝ) (hr : rate ≠ 0) (field : ℝ → α) (mem : α) (times : List ℝ) (t : ℝ) :
    runGauss rate field mem (times ++ [t]) = field t := by
  unfold runGauss setGauss
  simp [List.foldl_append, hr]

/-- **C69 is violated** for a moving source of constant peak temperature: the centre moves but the field is never rewritten
after time zero; it stays the field of time zero for all times. -/
theorem c69_violation_constant_peak {α : Type} (field : ℝ → α) (mem : α) (times : List ℝ) (h : ∀ t ∈ times, t ≠ 0) :
    runGauss 0 field mem (0 :: times) = field 0 ∧ runGauss 0 field mem times = mem := by
  have key : ∀ m, times.foldl (setGauss 0 field) m = m := by
    intro m
    induction times generalizing m with
    | nil => rfl
    | cons t ts ih =>
      have ht : t ≠ 0 := h t (by simp)
      simp only [List.foldl_cons]
      rw [show setGauss 0 field m t = m by unfold setGauss; simp [ht]]
      exact ih (fun s hs => h s (by simp [hs])) m
  constructor
  · unfold runGauss
    rw [List.foldl_cons, key]
    unfold setGauss; simp
  · exact key mem

/-! ## C70: frozen gradient in a moving frame -/

/-- Specification: how far a frame has moved at time `t` that starts at time `s` with velocity `v` and changes its velocity at
the listed times. -/
def displacement (s v : ℝ) : List (ℝ × ℝ) → ℝ → ℝ
  | [], t => (t - s) * v
  | r :: rs, t => (r.1 - s) * v + displacement r.1 r.2 rs t

theorem centerAt_frameAfter (f : Frame) (rs : List (ℝ × ℝ)) (t : ℝ) :
    centerAt (frameAfter f rs) t = f.center - displacement f.time f.vel rs t := by
  induction rs generalizing f with
  | nil => rfl
  | cons r rs ih =>
    have := ih (resetVelocity f r.1 r.2)
    simp only [frameAfter, List.foldl_cons] at this ⊢
    rw [this]
    simp only [resetVelocity, displacement]
    ring

/-- **C70**: however often the frame velocity is adapted, the temperature of a point at rest in the laboratory is that of the
frozen gradient in the laboratory, the same for all frame velocities. -/
theorem c70_lab_frame (T0 rate c0 c1 g0 g1 v : ℝ) (rs : List (ℝ × ℝ)) (t X Y : ℝ) :
    frozen2 T0 rate c1 g0 g1 (frameAfter ⟨c0, 0, v⟩ rs) t (X - displacement 0 v rs t) Y =
      T0 + rate * t + g0 * (X - c0) + g1 * (Y - c1) := by
  unfold frozen2 gradT2
  rw [centerAt_frameAfter]
  simp only
  ring

/-- **C70**: adapting the velocity does not make the temperature jump. -/
theorem c70_continuous (T0 rate c1 g0 g1 : ℝ) (f : Frame) (t v x y : ℝ) :
    frozen2 T0 rate c1 g0 g1 (resetVelocity f t v) t x y = frozen2 T0 rate c1 g0 g1 f t x y := by
  unfold frozen2 gradT2 centerAt resetVelocity
  ring

/-- **C70**: the field has the given gradient in every direction. -/
theorem c70_gradient (Tr c0 c1 c2 g0 g1 g2 x y z u v w : ℝ) :
    gradT2 Tr c0 c1 g0 g1 (x + u) (y + v) - gradT2 Tr c0 c1 g0 g1 x y = g0 * u + g1 * v ∧
    gradT3 Tr c0 c1 c2 g0 g1 g2 (x + u) (y + v) (z + w) - gradT3 Tr c0 c1 c2 g0 g1 g2 x y z = g0 * u + g1 * v + g2 * w ∧
    gradT2 Tr c0 c1 g0 g1 c0 c1 = Tr ∧ gradT3 Tr c0 c1 c2 g0 g1 g2 c0 c1 c2 = Tr := by
  unfold gradT2 gradT3
  refine ⟨by ring, by ring, by ring, by ring⟩

/-- **C70 is violated** across a restart: the position of the frame and its adapted velocity are not saved
(`QuatModel::putToRestart` saves only `PFModel` data, the strategy is rebuilt from the input at time zero), so the temperature
is right after a restart only where the gradient vanishes or if the frame happens to be where the initial velocity would have
brought it. -/
theorem c70_violation_restart (T0 rate c0 c1 g0 g1 v : ℝ) (rs : List (ℝ × ℝ)) (t x y : ℝ) :
    frozen2 T0 rate c1 g0 g1 ⟨c0, 0, v⟩ t x y = frozen2 T0 rate c1 g0 g1 (frameAfter ⟨c0, 0, v⟩ rs) t x y ↔
      g0 = 0 ∨ displacement 0 v rs t = v * t := by
  unfold frozen2 gradT2
  rw [centerAt_frameAfter]
  simp only [centerAt]
  constructor
  · intro h
    have : g0 * (displacement 0 v rs t - v * t) = 0 := by linear_combination -h
    rcases mul_eq_zero.mp this with h | h
    · exact Or.inl h
    · exact Or.inr (by linarith)
  · rintro (h | h)
    · rw [h]; ring
    · rw [h]; ring

/-- **C70** (partial): with a constant frame velocity nothing is lost in a restart. -/
theorem c70_restart_partial (T0 rate c0 c1 g0 g1 v : ℝ) (ts : List ℝ) (t x y : ℝ) :
    frozen2 T0 rate c1 g0 g1 ⟨c0, 0, v⟩ t x y
      = frozen2 T0 rate c1 g0 g1 (frameAfter ⟨c0, 0, v⟩ (ts.map fun s => (s, v))) t x y := by
  rw [c70_violation_restart]
  right
  have : ∀ s, displacement s v (ts.map fun s => (s, v)) t = (t - s) * v := by
    induction ts with
    | nil => intro s; rfl
    | cons r ts ih => intro s; simp only [List.map_cons, displacement, ih]; ring
  rw [this]
  ring

/-! ## C71: heat sources -/

/-- **C71**: the heat source of an alloy lies between those of its two species and is that of the species for the pure ones. -/
theorem c71_mixture (s1 s2 c cp : ℝ) (hc : 0 ≤ c ∧ c ≤ 1) (hp : 0 < cp) :
    min s1 s2 / cp ≤ sourceTemp s1 s2 c cp ∧ sourceTemp s1 s2 c cp ≤ max s1 s2 / cp ∧
    sourceTemp s1 s2 1 cp = s1 / cp ∧ sourceTemp s1 s2 0 cp = s2 / cp := by
  unfold sourceTemp
  refine ⟨?_, ?_, by ring, by ring⟩
  · apply div_le_div_of_nonneg_right _ hp.le
    have h1 := min_le_left s1 s2
    have h2 := min_le_right s1 s2
    nlinarith
  · apply div_le_div_of_nonneg_right _ hp.le
    have h1 := le_max_left s1 s2
    have h2 := le_max_right s1 s2
    nlinarith

/-- **C71**: the pulsed Gaussian source never exceeds its maximum power, which it has at the pulse time at the centre. -/
theorem c71_pulse (sd peak tP width l0 l1 c0 c1 x y cp t : ℝ) (hpk : 0 ≤ peak) (hp : 0 < cp) :
    0 ≤ gaussSource2 sd (pulsePeak peak tP width t) l0 l1 c0 c1 x y cp ∧
    gaussSource2 sd (pulsePeak peak tP width t) l0 l1 c0 c1 x y cp ≤ peak / cp ∧
    gaussSource2 sd (pulsePeak peak tP width tP) l0 l1 c0 c1 c0 c1 cp = peak / cp := by
  have hz : ∀ l c, axisDist l c c = 0 := by
    intro l c
    unfold axisDist
    simp
  have hf : ∀ s : ℝ, 0 ≤ 1 / (2 * s * s) := by
    intro s
    have : 0 ≤ 2 * s * s := by nlinarith [mul_self_nonneg s]
    positivity
  have he : ∀ r s : ℝ, 0 ≤ r → Real.exp (-r * (1 / (2 * s * s))) ≤ 1 := fun r s hr =>
    Real.exp_le_one_iff.mpr (by nlinarith [hf s])
  have hpu : pulsePeak peak tP width t ≤ peak ∧ 0 ≤ pulsePeak peak tP width t := by
    unfold pulsePeak
    have h1 := he ((t - tP) * (t - tP)) width (mul_self_nonneg _)
    have h2 : -((t - tP) * (t - tP)) * (1 / (2 * width * width)) = -(t - tP) * (t - tP) / (2 * width * width) := by ring
    rw [h2] at h1
    have h3 := Real.exp_pos (-(t - tP) * (t - tP) / (2 * width * width))
    constructor
    · nlinarith
    · positivity
  have hr : 0 ≤ axisDist l0 x c0 ^ 2 + axisDist l1 y c1 ^ 2 := by positivity
  have h1 := he _ sd hr
  have h3 := Real.exp_pos (-(axisDist l0 x c0 ^ 2 + axisDist l1 y c1 ^ 2) * (1 / (2 * sd * sd)))
  refine ⟨?_, ?_, ?_⟩
  · unfold gaussSource2
    exact div_nonneg (mul_nonneg hpu.2 h3.le) hp.le
  · unfold gaussSource2
    apply div_le_div_of_nonneg_right _ hp.le
    nlinarith [hpu.1, hpu.2]
  · unfold gaussSource2 pulsePeak
    simp [hz]

/-- **C71**: the rescaled system handed to the solver has the solutions of the heat equation `D ΔT + source = 0`: the
unscaled source heats (not cools). -/
theorem c71_scaling (D sd peak l0 l1 c0 c1 x y cp lap : ℝ) :
    steadyResidual D sd peak l0 l1 c0 c1 x y cp lap = 0 ↔ D * lap + gaussSource2 sd peak l0 l1 c0 c1 x y cp = 0 := by
  have : steadyResidual D sd peak l0 l1 c0 c1 x y cp lap
      = -1e-6 * (D * lap + gaussSource2 sd peak l0 l1 c0 c1 x y cp) := by
    unfold steadyResidual gaussSource2
    ring
  rw [this]
  constructor
  · intro h
    rcases mul_eq_zero.mp h with h | h
    · norm_num at h
    · exact h
  · intro h; rw [h]; ring

/-! ## Non-vacuity -/

/-- A frame that speeds up from 1 to 2 at time 1: at time 2 it has moved by 3, not by 2 as a restart assumes. -/
example : displacement 0 1 [(1, 2)] 2 = 3 ∧
    frozen2 1000 0 0 10 0 ⟨0, 0, 1⟩ 2 5 0 ≠ frozen2 1000 0 0 10 0 (frameAfter ⟨0, 0, 1⟩ [(1, 2)]) 2 5 0 := by
  constructor
  · norm_num [displacement]
  · rw [ne_eq, c70_violation_restart]
    norm_num [displacement]

/-- A centre two and a half periods off comes back to the middle. -/
example : CenterWrap 0 1 (-2) 0 := ⟨0, .step (by norm_num) (by norm_num; exact .step (by norm_num) (by norm_num; exact .done (by norm_num))), .done (by norm_num)⟩

end AMPE.Thermal.Props
