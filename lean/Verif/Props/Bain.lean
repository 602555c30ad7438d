import Verif.Model.Bain
import Verif.Props.Nuclei
import Mathlib.Analysis.SpecialFunctions.Trigonometric.Bounds

/-!
# C164: nuclei with the three Bain orientations
-/

namespace AMPE.Bain.Props

open AMPE.Bain
open AMPE.Nuclei (Pt distance1 distance2 imposeMinDistance)
open AMPE.Nuclei.Props (sqImage fold_le fold_bound fold_attain c142_distance c142_separated)
open AMPE.Quat (Q4)

/-! ## Specification -/

/-- Own cell or one of the neighbours. -/
def Next (i : ℤ) : Prop := i = -1 ∨ i = 0 ∨ i = 1

/-- A point is within the radius of a nucleus or of one of its periodic images. -/
def Within (J : Job) (p : Pt) (g : ℕ) : Prop :=
  ∃ i j k : ℤ, Next i ∧ Next j ∧ Next k ∧
    (p.x - (J.centre g).x + i * J.nx) ^ 2 + (p.y - (J.centre g).y + j * J.ny) ^ 2 + (p.z - (J.centre g).z + k * J.nz) ^ 2 < J.radius ^ 2

/-- Unit quaternion. -/
def Unit (q : Q4) : Prop := q.q1 ^ 2 + q.q2 ^ 2 + q.q3 ^ 2 + q.q4 ^ 2 = 1

/-! ## Distances -/

theorem mem_im (i : ℤ) : i ∈ im ↔ Next i := by simp [im, Next]

theorem within_iff (J : Job) (p : Pt) (g : ℕ) : distance2 im im im J.nx J.ny J.nz p (J.centre g) < J.radius ^ 2 ↔ Within J p g := by
  obtain ⟨h1, h2, h3⟩ := c142_distance im im im J.nx J.ny J.nz p (J.centre g)
  constructor
  · intro h
    rcases h3 with e | ⟨i, hi, j, hj, k, hk, e⟩
    · refine ⟨0, 0, 0, Or.inr (Or.inl rfl), Or.inr (Or.inl rfl), Or.inr (Or.inl rfl), ?_⟩
      rw [e] at h
      simpa [AMPE.Nuclei.Props.sq] using h
    · rw [e] at h
      exact ⟨i, j, k, (mem_im i).1 hi, (mem_im j).1 hj, (mem_im k).1 hk, h⟩
  · rintro ⟨i, j, k, hi, hj, hk, h⟩
    exact (h2 i ((mem_im i).2 hi) j ((mem_im j).2 hj) k ((mem_im k).2 hk)).trans_lt h

theorem line_iff (n x y r : ℝ) : distance1 im n x y < r ↔ ∃ i : ℤ, Next i ∧ (x - y + i * n) ^ 2 < r := by
  have a1 : ∀ d : ℝ, ∀ i : ℤ, (if (x - y + i * n) ^ 2 < d then (x - y + i * n) ^ 2 else d) ≤ d := fun d i => by
    split_ifs with h
    · exact h.le
    · exact le_rfl
  constructor
  · intro h
    rcases fold_attain (P := fun v => ∃ i : ℤ, Next i ∧ (x - y + i * n) ^ 2 = v) (l := im)
      (f := fun d2 (ir : ℤ) => if (x - y + ir * n) ^ 2 < d2 then (x - y + ir * n) ^ 2 else d2) (fun d i hi => by
        split_ifs with h
        · exact Or.inr ⟨i, (mem_im i).1 hi, rfl⟩
        · exact Or.inl rfl) ((x - y) ^ 2) with e | ⟨i, hi, e⟩
    · refine ⟨0, Or.inr (Or.inl rfl), ?_⟩
      have : distance1 im n x y = (x - y) ^ 2 := e
      rw [this] at h
      simpa using h
    · exact ⟨i, hi, e.trans_lt h⟩
  · rintro ⟨i, hi, h⟩
    refine lt_of_le_of_lt ?_ h
    refine fold_bound (f := fun d2 (ir : ℤ) => if (x - y + ir * n) ^ 2 < d2 then (x - y + ir * n) ^ 2 else d2) a1 ((mem_im i).2 hi) (fun d => ?_) _
    split_ifs with h
    · exact le_rfl
    · exact not_lt.1 h

/-- The 2D script's distance is the least one over the images, too. -/
theorem c164_distance (J : Job) (p : Pt) (g : ℕ) : distanceP J.nx J.ny J.nz p (J.centre g) < J.radius ^ 2 ↔ Within J p g := by
  set q := J.centre g with hq
  have z1 : ∀ i j : ℤ, ∀ d : ℝ, ∀ k : ℤ, (if sqImage J.nx J.ny J.nz p q i j k < d then sqImage J.nx J.ny J.nz p q i j k else d) ≤ d := fun i j d k => by
    split_ifs with h
    · exact h.le
    · exact le_rfl
  have y1 : ∀ i : ℤ, ∀ d : ℝ, ∀ j : ℤ, im.foldl (fun d (k : ℤ) => if sqImage J.nx J.ny J.nz p q i j k < d then sqImage J.nx J.ny J.nz p q i j k else d) d ≤ d :=
    fun i d j => fold_le (z1 i j) _ _
  have x1 : ∀ d : ℝ, ∀ i : ℤ, im.foldl (fun d (j : ℤ) => im.foldl (fun d (k : ℤ) =>
      if sqImage J.nx J.ny J.nz p q i j k < d then sqImage J.nx J.ny J.nz p q i j k else d) d) d ≤ d := fun d i => fold_le (y1 i) _ _
  have e : distanceP J.nx J.ny J.nz p q = im.foldl (fun d (i : ℤ) => im.foldl (fun d (j : ℤ) => im.foldl (fun d (k : ℤ) =>
      if sqImage J.nx J.ny J.nz p q i j k < d then sqImage J.nx J.ny J.nz p q i j k else d) d) d) (AMPE.Nuclei.Props.sq p q) := rfl
  rw [e]
  constructor
  · intro h
    have zz : ∀ i j : ℤ, Next i → Next j → ∀ d : ℝ,
        im.foldl (fun d (k : ℤ) => if sqImage J.nx J.ny J.nz p q i j k < d then sqImage J.nx J.ny J.nz p q i j k else d) d = d ∨
        ∃ i' j' k' : ℤ, Next i' ∧ Next j' ∧ Next k' ∧
          im.foldl (fun d (k : ℤ) => if sqImage J.nx J.ny J.nz p q i j k < d then sqImage J.nx J.ny J.nz p q i j k else d) d = sqImage J.nx J.ny J.nz p q i' j' k' :=
      fun i j hi hj d => fold_attain (P := fun v => ∃ i j k : ℤ, Next i ∧ Next j ∧ Next k ∧ v = sqImage J.nx J.ny J.nz p q i j k) (fun d k hk => by
        split_ifs with h
        · exact Or.inr ⟨i, j, k, hi, hj, (mem_im k).1 hk, rfl⟩
        · exact Or.inl rfl) d
    rcases fold_attain (P := fun v => ∃ i j k : ℤ, Next i ∧ Next j ∧ Next k ∧ v = sqImage J.nx J.ny J.nz p q i j k) (l := im) (f := fun d (i : ℤ) =>
        im.foldl (fun d (j : ℤ) => im.foldl (fun d (k : ℤ) => if sqImage J.nx J.ny J.nz p q i j k < d then sqImage J.nx J.ny J.nz p q i j k else d) d) d)
      (fun d i hi => fold_attain (P := fun v => ∃ i j k : ℤ, Next i ∧ Next j ∧ Next k ∧ v = sqImage J.nx J.ny J.nz p q i j k)
        (fun d j hj => zz i j ((mem_im i).1 hi) ((mem_im j).1 hj) d) d) (AMPE.Nuclei.Props.sq p q) with e' | ⟨i, j, k, hi, hj, hk, e'⟩
    · rw [e'] at h
      refine ⟨0, 0, 0, Or.inr (Or.inl rfl), Or.inr (Or.inl rfl), Or.inr (Or.inl rfl), ?_⟩
      simpa [AMPE.Nuclei.Props.sq, hq] using h
    · rw [e'] at h
      exact ⟨i, j, k, hi, hj, hk, h⟩
  · rintro ⟨i, j, k, hi, hj, hk, h⟩
    refine lt_of_le_of_lt ?_ h
    refine fold_bound x1 ((mem_im i).2 hi) (fun d => ?_) _
    refine fold_bound (y1 i) ((mem_im j).2 hj) (fun d => ?_) _
    refine fold_bound (z1 i j) ((mem_im k).2 hk) (fun d => ?_) _
    split_ifs with h
    · exact le_rfl
    · exact not_lt.1 h

/-! ## Which cells are solid -/

theorem sets_iff (J : Job) (g : ℕ) (c : ℕ × ℕ × ℕ) : sets J g c ↔ Within J (mid c) g ∧
    (∃ k : ℤ, Next k ∧ ((mid c).z - (J.centre g).z + k * J.nx) ^ 2 < J.radius ^ 2) ∧
    (∃ j : ℤ, Next j ∧ ((mid c).y - (J.centre g).y + j * J.nx) ^ 2 < J.radius ^ 2) := by
  unfold sets
  rw [line_iff, line_iff, within_iff]
  tauto

/-- **C164** (partial): in a cube a nucleus sets the cells within its radius, images included.  Missing: other boxes, see below. -/
theorem c164_sphere_partial (J : Job) (hy : J.ny = J.nx) (hz : J.nz = J.nx) (g : ℕ) (c : ℕ × ℕ × ℕ) : sets J g c ↔ Within J (mid c) g := by
  rw [sets_iff]
  refine ⟨fun h => h.1, fun h => ⟨h, ?_⟩⟩
  obtain ⟨i, j, k, hi, hj, hk, h⟩ := h
  rw [hy, hz] at h
  refine ⟨⟨k, hk, ?_⟩, ⟨j, hj, ?_⟩⟩
  · exact lt_of_le_of_lt (by nlinarith [sq_nonneg ((mid c).x - (J.centre g).x + i * J.nx), sq_nonneg ((mid c).y - (J.centre g).y + j * J.nx)]) h
  · exact lt_of_le_of_lt (by nlinarith [sq_nonneg ((mid c).x - (J.centre g).x + i * J.nx), sq_nonneg ((mid c).z - (J.centre g).z + k * J.nx)]) h

/-- In any box a nucleus sets no cell outside its radius. -/
theorem c164_inside (J : Job) (g : ℕ) (c : ℕ × ℕ × ℕ) (h : sets J g c) : Within J (mid c) g := ((sets_iff J g c).1 h).1

/-- **C164, violated**: in a box longer in `x` than in `y` nuclei are cut at the periodic boundary in `y`: a cell further than the radius from the centre
directly, and further than the radius from its image at distance `nx`, is not set although it may be within the radius of the image at distance `ny`. -/
theorem c164_violation_cut (J : Job) (g : ℕ) (c : ℕ × ℕ × ℕ) (hr : 0 ≤ J.radius) (h1 : (J.centre g).y + J.radius ≤ (mid c).y)
    (h2 : (mid c).y - (J.centre g).y + J.radius ≤ J.nx) : ¬ sets J g c := by
  intro h
  obtain ⟨-, -, j, hj, h⟩ := (sets_iff J g c).1 h
  have a := abs_lt_of_sq_lt_sq h hr
  rw [abs_lt] at a
  have hn : (0 : ℝ) ≤ J.nx := Nat.cast_nonneg _
  rcases hj with rfl | rfl | rfl
  · push_cast at a
    linarith [a.1, a.2]
  · push_cast at a
    linarith [a.1, a.2]
  · push_cast at a
    linarith [a.1, a.2]

open Classical in
theorem fill_eq (J : Job) (out inside : ℝ) (c : ℕ × ℕ × ℕ) : fill J out inside c = if ∃ g < J.n, sets J g c then inside else out := by
  unfold fill
  generalize J.n = n
  induction n with
  | zero => simp
  | succ n ih =>
    rw [List.range_succ, List.foldl_append, ih]
    simp only [List.foldl_cons, List.foldl_nil]
    by_cases h : sets J n c
    · rw [if_pos h, if_pos ⟨n, Nat.lt_succ_self n, h⟩]
    · rw [if_neg h]
      have : (∃ g < n, sets J g c) ↔ ∃ g < n + 1, sets J g c := by
        constructor
        · rintro ⟨g, hg, hs⟩
          exact ⟨g, by omega, hs⟩
        · rintro ⟨g, hg, hs⟩
          rcases Nat.lt_succ_iff_lt_or_eq.1 hg with h' | rfl
          · exact ⟨g, h', hs⟩
          · exact absurd hs h
      simp only [this]

/-- **C164**: a cell has the phase and the composition of the nuclei if one of them sets it, otherwise those of the outside. -/
theorem c164_fields (J : Job) (c : ℕ × ℕ × ℕ) :
    ((∃ g < J.n, sets J g c) → phase J c = J.phaseIn ∧ conc J c = J.concIn) ∧
    ((¬ ∃ g < J.n, sets J g c) → phase J c = J.phaseOut ∧ conc J c = concOut J) := by
  unfold phase conc
  rw [fill_eq, fill_eq]
  exact ⟨fun h => by rw [if_pos h, if_pos h]; exact ⟨rfl, rfl⟩, fun h => by rw [if_neg h, if_neg h]; exact ⟨rfl, rfl⟩⟩

/-- **C164**: the orientation of a cell is that of a nucleus that sets it, and the one of the outside only where none does. -/
theorem c164_owner (J : Job) (c : ℕ × ℕ × ℕ) :
    (∀ g, owner J c = some g → g < J.n ∧ sets J g c) ∧ (owner J c = none → ¬ ∃ g < J.n, sets J g c) := by
  classical
  unfold owner
  generalize J.n = n
  induction n with
  | zero => simp
  | succ n ih =>
    rw [List.range_succ, List.foldl_append]
    simp only [List.foldl_cons, List.foldl_nil]
    by_cases h : sets J n c
    · rw [if_pos h]
      refine ⟨fun g hg => ?_, fun hg => by cases hg⟩
      cases hg
      exact ⟨Nat.lt_succ_self n, h⟩
    · rw [if_neg h]
      refine ⟨fun g hg => ⟨(ih.1 g hg).1.trans (Nat.lt_succ_self n), (ih.1 g hg).2⟩, ?_⟩
      rintro hg ⟨g, hg', hs⟩
      rcases Nat.lt_succ_iff_lt_or_eq.1 hg' with h' | rfl
      · exact ih.2 hg ⟨g, h', hs⟩
      · exact h hs

/-! ## Composition -/

open Classical in
/-- Cells in nuclei. -/
noncomputable def inside (J : Job) : Finset (ℕ × ℕ × ℕ) := (cells J).filter fun c => ∃ g < J.n, sets J g c

/-- Share of the cells that are in nuclei. -/
noncomputable def share (J : Job) : ℝ := (inside J).card / vol J

/-- Mean composition of the file. -/
noncomputable def mean (J : Job) : ℝ := (∑ c ∈ cells J, conc J c) / vol J

theorem card_cells (J : Job) : ((cells J).card : ℝ) = vol J := by
  unfold cells vol
  simp [Finset.card_product]
  ring

theorem sum_fill (J : Job) (out ins : ℝ) : ∑ c ∈ cells J, fill J out ins c = (inside J).card * ins + (vol J - (inside J).card) * out := by
  classical
  have e : ∀ c, fill J out ins c = out + (if ∃ g < J.n, sets J g c then ins - out else 0) := fun c => by
    rw [fill_eq]
    split_ifs <;> ring
  simp only [e]
  rw [Finset.sum_add_distrib, Finset.sum_const, nsmul_eq_mul, card_cells, ← Finset.sum_filter, Finset.sum_const, nsmul_eq_mul]
  unfold inside
  ring

/-- Deviation of the mean from the nominal composition. -/
theorem c164_violation_nominal (J : Job) (hv : 0 < vol J) (hp : intPhase J ≠ 1) :
    mean J - J.nominal = (J.concIn - J.nominal) * (share J - intPhase J) / (1 - intPhase J) := by
  have h1 : 1 - intPhase J ≠ 0 := sub_ne_zero.2 (Ne.symm hp)
  have hv' := hv.ne'
  unfold mean conc
  rw [sum_fill]
  unfold concOut share
  field_simp
  ring

/-- **C164** (partial): with phase 1 inside and 0 outside, the defaults, the mean composition is the nominal one.  Missing: other phases, see above: then
the mean is off unless nuclei and nominal composition are the same. -/
theorem c164_nominal_partial (J : Job) (hv : 0 < vol J) (hi : J.phaseIn = 1) (ho : J.phaseOut = 0) (hs : share J ≠ 1) : mean J = J.nominal := by
  have e : intPhase J = share J := by
    unfold intPhase phase share
    rw [sum_fill, hi, ho]
    ring
  have := c164_violation_nominal J hv (by rw [e]; exact hs)
  rw [e, sub_self, mul_zero, zero_div, sub_eq_zero] at this
  exact this

/-- **C164, violated**: nuclei that hold more than the nominal amount leave a negative composition outside. -/
theorem c164_violation_negative (J : Job) (hp : intPhase J < 1) : concOut J < 0 ↔ J.nominal < J.concIn * intPhase J := by
  unfold concOut
  rw [div_neg_iff]
  constructor
  · rintro (⟨_, h⟩ | ⟨h, _⟩)
    · linarith
    · linarith
  · intro h
    exact Or.inr ⟨by linarith, by linarith⟩

/-! ## Nuclei do not overlap -/

theorem next_sub {i i' : ℤ} (hi : Next i) (hi' : Next i') (n a b x r : ℝ) (ha : 0 ≤ a ∧ a ≤ n) (hb : 0 ≤ b ∧ b ≤ n) (hr : 2 * r ≤ n)
    (h1 : |x - a + i * n| < r) (h2 : |x - b + i' * n| < r) : Next (i' - i) := by
  rw [abs_lt] at h1 h2
  unfold Next at *
  rcases hi with rfl | rfl | rfl <;> rcases hi' with rfl | rfl | rfl <;> norm_num <;> norm_num at h1 h2 <;> linarith [ha.1, ha.2, hb.1, hb.2, h1.1, h1.2, h2.1, h2.2]

theorem clash (u v w u' v' w' r : ℝ) (h1 : u ^ 2 + v ^ 2 + w ^ 2 < r ^ 2) (h2 : u' ^ 2 + v' ^ 2 + w' ^ 2 < r ^ 2)
    (h : (3 * r) ^ 2 ≤ (u - u') ^ 2 + (v - v') ^ 2 + (w - w') ^ 2) : False := by
  nlinarith [sq_nonneg (u + u'), sq_nonneg (v + v'), sq_nonneg (w + w'), sq_nonneg u, sq_nonneg v, sq_nonneg w]

/-- **C164**: if the loop that moves the centres apart ends with all of them in the box, and the box is not thinner than a nucleus, no point is within two
nuclei. -/
theorem c164_apart (J : Job) (hr : 0 < J.radius) (rnd : ℕ → ℕ → ℕ → Pt) (fuel : ℕ) (c : ℕ → Pt)
    (h : imposeMinDistance J.n J.nx J.ny J.nz (3 * J.radius) rnd fuel c = some J.centre)
    (hb : ∀ g < J.n, (0 ≤ (J.centre g).x ∧ (J.centre g).x ≤ J.nx) ∧ (0 ≤ (J.centre g).y ∧ (J.centre g).y ≤ J.ny) ∧
      (0 ≤ (J.centre g).z ∧ (J.centre g).z ≤ J.nz))
    (hx : 2 * J.radius ≤ J.nx) (hy : 2 * J.radius ≤ J.ny) (hz : 2 * J.radius ≤ J.nz) (p : Pt) (g g' : ℕ) (hg : g < J.n) (hg' : g' < J.n)
    (h1 : Within J p g) (h2 : Within J p g') : g = g' := by
  have main : ∀ g < J.n, ∀ g' < J.n, g < g' → Within J p g → Within J p g' → False := by
    intro g hg g' hg' hlt ⟨i, j, k, hi, hj, hk, h1⟩ ⟨i', j', k', hi', hj', hk', h2⟩
    obtain ⟨bx, by', bz⟩ := hb g hg
    obtain ⟨bx', by'', bz'⟩ := hb g' hg'
    set a := J.centre g with ha
    set b := J.centre g' with hb'
    have s : ∀ u v w : ℝ, u ^ 2 + v ^ 2 + w ^ 2 < J.radius ^ 2 → |u| < J.radius ∧ |v| < J.radius ∧ |w| < J.radius := fun u v w h =>
      ⟨abs_lt_of_sq_lt_sq (by nlinarith [sq_nonneg v, sq_nonneg w]) hr.le, abs_lt_of_sq_lt_sq (by nlinarith [sq_nonneg u, sq_nonneg w]) hr.le,
        abs_lt_of_sq_lt_sq (by nlinarith [sq_nonneg u, sq_nonneg v]) hr.le⟩
    obtain ⟨x1, y1, z1⟩ := s _ _ _ h1
    obtain ⟨x2, y2, z2⟩ := s _ _ _ h2
    have nx := next_sub hi' hi _ _ _ _ _ bx' bx hx x2 x1
    have ny := next_sub hj' hj _ _ _ _ _ by'' by' hy y2 y1
    have nz := next_sub hk' hk _ _ _ _ _ bz' bz hz z2 z1
    have near : ∀ m : ℤ, Next m → AMPE.Nuclei.Props.Near (m : ℝ) := by
      rintro m (rfl | rfl | rfl) <;> simp [AMPE.Nuclei.Props.Near]
    have far := (c142_separated _ _ _ _ _ _ _ _ _ h).1 g hg g' hg' hlt _ _ _ (near _ nx) (near _ ny) (near _ nz)
    unfold AMPE.Nuclei.Props.len AMPE.Nuclei.Props.toImage at far
    rw [← ha, ← hb'] at far
    have := Real.le_sqrt' (by linarith : (0 : ℝ) < 3 * J.radius) |>.1 far
    push_cast at this
    refine clash _ _ _ _ _ _ J.radius h1 h2 (this.trans_eq ?_)
    ring
  rcases lt_trichotomy g g' with hl | hl | hl
  · exact (main g hg g' hg' hl h1 h2).elim
  · exact hl
  · exact (main g' hg' g hg hl h2 h1).elim

/-! ## Orientations -/

theorem list_unit (g : ℕ) : Unit (list g) := by
  have e := Real.cos_sq_add_sin_sq (Real.pi / 8)
  unfold Unit list
  have : g % 3 = 0 ∨ g % 3 = 1 ∨ g % 3 = 2 := by omega
  rcases this with h | h | h
  · have h1 : (g + 0) % 3 = 0 := by omega
    have h2 : (g + 1) % 3 ≠ 0 := by omega
    have h3 : (g + 2) % 3 ≠ 0 := by omega
    simp only [h1, h2, h3, if_true, if_false]
    linarith
  · have h1 : (g + 0) % 3 ≠ 0 := by omega
    have h2 : (g + 1) % 3 ≠ 0 := by omega
    have h3 : (g + 2) % 3 = 0 := by omega
    simp only [h1, h2, h3, if_true, if_false]
    linarith
  · have h1 : (g + 0) % 3 ≠ 0 := by omega
    have h2 : (g + 1) % 3 = 0 := by omega
    have h3 : (g + 2) % 3 ≠ 0 := by omega
    simp only [h1, h2, h3, if_true, if_false]
    linarith

theorem quat_eq (g : ℕ) : quat g = list g := by
  have u := list_unit g
  unfold Unit at u
  have m : AMPE.PyQuat.magnitude4 (list g) = 1 := by
    unfold AMPE.PyQuat.magnitude4
    rw [show 0 + (list g).q1 * (list g).q1 + (list g).q2 * (list g).q2 + (list g).q3 * (list g).q3 + (list g).q4 * (list g).q4 = 1 by linarith [u]]
    exact Real.sqrt_one
  unfold quat AMPE.PyQuat.normalize4
  rw [m]
  norm_num

theorem sin_pos8 : 0 < Real.sin (Real.pi / 8) := Real.sin_pos_of_pos_of_lt_pi (by positivity) (by linarith [Real.pi_pos])

theorem cos_pos8 : 0 < Real.cos (Real.pi / 8) := Real.cos_pos_of_mem_Ioo ⟨by linarith [Real.pi_pos], by linarith [Real.pi_pos]⟩

/-- **C164**: every nucleus has a rotation by 45 degrees about one of the three axes: the first for nuclei 0, 3, 6, ...,
the third for 1, 4, 7, ..., the second for 2, 5, 8, .... -/
theorem c164_variants (g : ℕ) : Unit (quat g) ∧ (quat g).q1 = Real.cos (Real.pi / 4 / 2) ∧
    ((g % 3 = 0 ∧ (quat g).q2 = Real.sin (Real.pi / 4 / 2)) ∨ (g % 3 = 2 ∧ (quat g).q3 = Real.sin (Real.pi / 4 / 2)) ∨
      (g % 3 = 1 ∧ (quat g).q4 = Real.sin (Real.pi / 4 / 2))) := by
  have e : Real.pi / 4 / 2 = Real.pi / 8 := by ring
  rw [quat_eq, e]
  refine ⟨list_unit g, rfl, ?_⟩
  unfold list
  have : g % 3 = 0 ∨ g % 3 = 1 ∨ g % 3 = 2 := by omega
  rcases this with h | h | h
  · exact Or.inl ⟨h, if_pos (by omega)⟩
  · exact Or.inr (Or.inr ⟨h, if_pos (by omega)⟩)
  · exact Or.inr (Or.inl ⟨h, if_pos (by omega)⟩)

/-- **C164**: two nuclei have the same orientation exactly if their numbers differ by a multiple of three. -/
theorem c164_three (g g' : ℕ) : quat g = quat g' ↔ g % 3 = g' % 3 := by
  have s := sin_pos8.ne'
  rw [quat_eq, quat_eq]
  constructor
  · intro h
    have h2 := congrArg Q4.q2 h
    have h3 := congrArg Q4.q3 h
    unfold list at h2 h3
    dsimp only at h2 h3
    by_contra hne
    split_ifs at h2 h3 <;> first | omega | exact s h2 | exact s h3 | exact s h2.symm | exact s h3.symm
  · intro h
    unfold list
    have e : ∀ i, (g + i) % 3 = (g' + i) % 3 := fun i => by omega
    simp only [e]

/-- **C164, violated**: with one component per cell all nuclei get the same number, and with two the pair written is a unit vector for every third nucleus
only; more than four components end in an error. -/
theorem c164_violation_qlen (g : ℕ) : written 1 (quat g) = written 1 (quat 0) ∧
    (∃ a b : ℝ, written 2 (quat g) = some [a, b] ∧ (a ^ 2 + b ^ 2 = 1 ↔ g % 3 = 0)) ∧ ∀ m, 4 < m → written m (quat g) = none := by
  refine ⟨?_, ⟨(quat g).q1, (quat g).q2, rfl, ?_⟩, fun m hm => if_neg (by omega)⟩
  · rw [quat_eq, quat_eq]
    rfl
  · have e := Real.cos_sq_add_sin_sq (Real.pi / 8)
    have s := sin_pos8
    rw [quat_eq]
    unfold list
    dsimp only
    rw [Nat.add_zero]
    by_cases h : g % 3 = 0
    · simp only [h, if_true, iff_true]
      exact e
    · simp only [h, if_false, iff_false]
      intro hh
      nlinarith [mul_pos s s]

/-! ## Examples -/

/-- A box of 20 by 10 by 10 cells with a nucleus of radius 3 one cell from the boundary. -/
noncomputable def box : Job := ⟨20, 10, 10, 1, fun _ => ⟨10, 1, 5⟩, 3, 1, 0, 0.06, 0.1⟩

/-- The cell at the other end is within the radius of the image, but is not set. -/
example : Within box (mid (10, 9, 5)) 0 ∧ ¬ sets box 0 (10, 9, 5) := by
  refine ⟨⟨0, -1, 0, Or.inr (Or.inl rfl), Or.inl rfl, Or.inr (Or.inl rfl), ?_⟩, c164_violation_cut box 0 _ ?_ ?_ ?_⟩ <;> norm_num [box, mid]

end AMPE.Bain.Props
