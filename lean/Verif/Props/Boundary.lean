import Verif.Model.Boundary
import Verif.Props.ConservedFlow

/-! # C95: conditions at physical boundaries -/

namespace AMPE.Boundary.Props

open AMPE.Flux AMPE.Flux.Props AMPE.PhaseRHS AMPE.ConservedFlow AMPE.ConservedFlow.Props AMPE.Boundary

/-! ## Specification -/

/-- `a u + b u_n = g` on the face between the interior value `ui` and the outside value `uo`. -/
def Holds (c : Coef) (h ui uo : ℝ) : Prop := c.a * ((uo + ui) / 2) + c.b * ((uo - ui) / h) = c.g

/-- Value on the face. -/
noncomputable def face (ui uo : ℝ) : ℝ := (uo + ui) / 2

/-- A zero-gradient side. -/
def ZeroGradient (c : Coef) : Prop := c.a = 0 ∧ c.b ≠ 0 ∧ c.g = 0

/-- A side with the fixed value `g`. -/
def FixedValue (c : Coef) (g : ℝ) : Prop := c.a = 1 ∧ c.b = 0 ∧ c.g = g

/-- The box with `N` by `M` cells and lower corner `(f0, f1)`. -/
def boxOf (f0 f1 : ℤ) (N M : ℕ) : Box := ⟨f0, f0 + N - 1, f1, f1 + M - 1⟩

/-- Box and first layer of ghost cells. -/
def Near (B : Box) (i j : ℤ) : Prop := B.f0 - 1 ≤ i ∧ i ≤ B.l0 + 1 ∧ B.f1 - 1 ≤ j ∧ j ≤ B.l1 + 1

/-! ## Helpers -/

theorem ghost_zero {c : Coef} (h : ZeroGradient c) (dx ui : ℝ) : ghost c dx ui = ui := by
  obtain ⟨ha, hb, hg⟩ := h
  unfold ghost
  rw [ha, hg]
  field_simp
  ring

theorem ghost_holds {c : Coef} {h : ℝ} (hh : h ≠ 0) (hc : 2 * c.b + c.a * h ≠ 0) (ui uo : ℝ) : Holds c h ui uo ↔ uo = ghost c h ui := by
  unfold Holds ghost
  rw [eq_div_iff hc]
  field_simp
  constructor <;> intro e <;> linarith

theorem fill_inside (B : Box) (touch : Side → Bool) (coef : Side → Coef) (dx dy : ℝ) (u : Field2) (i j : ℤ)
    (h : B.f0 ≤ i ∧ i ≤ B.l0 ∧ B.f1 ≤ j ∧ j ≤ B.l1) : fillDepth B touch coef dx dy u i j = u i j := by
  obtain ⟨h1, h2, h3, h4⟩ := h
  have e1 : i ≠ B.f0 - 1 := by omega
  have e2 : i ≠ B.l0 + 1 := by omega
  have e3 : j ≠ B.f1 - 1 := by omega
  have e4 : j ≠ B.l1 + 1 := by omega
  simp [fillDepth, fillCorners, fillEdges, e1, e2, e3, e4]

theorem corners_of_edge (B : Box) (touch : Side → Bool) (e : Field2) (i j : ℤ) (h : (B.f0 ≤ i ∧ i ≤ B.l0) ∨ (B.f1 ≤ j ∧ j ≤ B.l1)) :
    fillCorners B touch e i j = e i j := by
  unfold fillCorners
  rw [if_neg (by omega), if_neg (by omega), if_neg (by omega), if_neg (by omega)]

theorem fill_far (B : Box) (touch : Side → Bool) (coef : Side → Coef) (dx dy : ℝ) (u : Field2) (i j : ℤ)
    (h : ¬ Near B i j) (hB : B.f0 ≤ B.l0 ∧ B.f1 ≤ B.l1) : fillDepth B touch coef dx dy u i j = u i j := by
  unfold Near at h
  unfold fillDepth fillCorners
  rw [if_neg (by omega), if_neg (by omega), if_neg (by omega), if_neg (by omega)]
  unfold fillEdges
  rw [if_neg (by omega), if_neg (by omega), if_neg (by omega), if_neg (by omega)]

theorem edges_xlo (B : Box) (touch : Side → Bool) (coef : Side → Coef) (dx dy : ℝ) (u : Field2) (j : ℤ) (ht : touch .xlo = true)
    (h : B.f1 ≤ j ∧ j ≤ B.l1) : fillEdges B touch coef dx dy u (B.f0 - 1) j = ghost (coef .xlo) dx (u B.f0 j) := by
  unfold fillEdges
  exact if_pos ⟨ht, rfl, h.1, h.2⟩

theorem edges_xhi (B : Box) (touch : Side → Bool) (coef : Side → Coef) (dx dy : ℝ) (u : Field2) (j : ℤ) (ht : touch .xhi = true)
    (h : B.f1 ≤ j ∧ j ≤ B.l1) (hB : B.f0 ≤ B.l0) : fillEdges B touch coef dx dy u (B.l0 + 1) j = ghost (coef .xhi) dx (u B.l0 j) := by
  unfold fillEdges
  rw [if_neg (by omega)]
  exact if_pos ⟨ht, rfl, h.1, h.2⟩

theorem edges_ylo (B : Box) (touch : Side → Bool) (coef : Side → Coef) (dx dy : ℝ) (u : Field2) (i : ℤ) (ht : touch .ylo = true)
    (h : B.f0 ≤ i ∧ i ≤ B.l0) : fillEdges B touch coef dx dy u i (B.f1 - 1) = ghost (coef .ylo) dy (u i B.f1) := by
  unfold fillEdges
  rw [if_neg (by omega), if_neg (by omega)]
  exact if_pos ⟨ht, rfl, h.1, h.2⟩

theorem edges_yhi (B : Box) (touch : Side → Bool) (coef : Side → Coef) (dx dy : ℝ) (u : Field2) (i : ℤ) (ht : touch .yhi = true)
    (h : B.f0 ≤ i ∧ i ≤ B.l0) (hB : B.f1 ≤ B.l1) : fillEdges B touch coef dx dy u i (B.l1 + 1) = ghost (coef .yhi) dy (u i B.l1) := by
  unfold fillEdges
  rw [if_neg (by omega), if_neg (by omega), if_neg (by omega)]
  exact if_pos ⟨ht, rfl, h.1, h.2⟩

theorem edges_inside (B : Box) (touch : Side → Bool) (coef : Side → Coef) (dx dy : ℝ) (u : Field2) (i j : ℤ)
    (h : B.f0 ≤ i ∧ i ≤ B.l0 ∧ B.f1 ≤ j ∧ j ≤ B.l1) : fillEdges B touch coef dx dy u i j = u i j := by
  unfold fillEdges
  rw [if_neg (by omega), if_neg (by omega), if_neg (by omega), if_neg (by omega)]

theorem fill_xlo (B : Box) (touch : Side → Bool) (coef : Side → Coef) (dx dy : ℝ) (u : Field2) (j : ℤ) (ht : touch .xlo = true)
    (h : B.f1 ≤ j ∧ j ≤ B.l1) : fillDepth B touch coef dx dy u (B.f0 - 1) j = ghost (coef .xlo) dx (u B.f0 j) :=
  (corners_of_edge B touch _ _ _ (Or.inr h)).trans (edges_xlo B touch coef dx dy u j ht h)

theorem fill_xhi (B : Box) (touch : Side → Bool) (coef : Side → Coef) (dx dy : ℝ) (u : Field2) (j : ℤ) (ht : touch .xhi = true)
    (h : B.f1 ≤ j ∧ j ≤ B.l1) (hB : B.f0 ≤ B.l0) : fillDepth B touch coef dx dy u (B.l0 + 1) j = ghost (coef .xhi) dx (u B.l0 j) :=
  (corners_of_edge B touch _ _ _ (Or.inr h)).trans (edges_xhi B touch coef dx dy u j ht h hB)

theorem fill_ylo (B : Box) (touch : Side → Bool) (coef : Side → Coef) (dx dy : ℝ) (u : Field2) (i : ℤ) (ht : touch .ylo = true)
    (h : B.f0 ≤ i ∧ i ≤ B.l0) : fillDepth B touch coef dx dy u i (B.f1 - 1) = ghost (coef .ylo) dy (u i B.f1) :=
  (corners_of_edge B touch _ _ _ (Or.inl h)).trans (edges_ylo B touch coef dx dy u i ht h)

theorem fill_yhi (B : Box) (touch : Side → Bool) (coef : Side → Coef) (dx dy : ℝ) (u : Field2) (i : ℤ) (ht : touch .yhi = true)
    (h : B.f0 ≤ i ∧ i ≤ B.l0) (hB : B.f1 ≤ B.l1) : fillDepth B touch coef dx dy u i (B.l1 + 1) = ghost (coef .yhi) dy (u i B.l1) :=
  (corners_of_edge B touch _ _ _ (Or.inl h)).trans (edges_yhi B touch coef dx dy u i ht h hB)

/-- Values next to the box depend on the values there only. -/
theorem fill_congr (B : Box) (touch : Side → Bool) (coef : Side → Coef) (dx dy : ℝ) (u v : Field2) (hB : B.f0 ≤ B.l0 ∧ B.f1 ≤ B.l1)
    (h : ∀ i j, Near B i j → u i j = v i j) (i j : ℤ) (hn : Near B i j) :
    fillDepth B touch coef dx dy u i j = fillDepth B touch coef dx dy v i j := by
  have key : ∀ i j, Near B i j → fillEdges B touch coef dx dy u i j = fillEdges B touch coef dx dy v i j := by
    intro i j hn
    unfold Near at hn h
    unfold fillEdges
    by_cases c1 : touch .xlo = true ∧ i = B.f0 - 1 ∧ B.f1 ≤ j ∧ j ≤ B.l1
    · rw [if_pos c1, if_pos c1, h B.f0 j (by omega)]
    rw [if_neg c1, if_neg c1]
    by_cases c2 : touch .xhi = true ∧ i = B.l0 + 1 ∧ B.f1 ≤ j ∧ j ≤ B.l1
    · rw [if_pos c2, if_pos c2, h B.l0 j (by omega)]
    rw [if_neg c2, if_neg c2]
    by_cases c3 : touch .ylo = true ∧ j = B.f1 - 1 ∧ B.f0 ≤ i ∧ i ≤ B.l0
    · rw [if_pos c3, if_pos c3, h i B.f1 (by omega)]
    rw [if_neg c3, if_neg c3]
    by_cases c4 : touch .yhi = true ∧ j = B.l1 + 1 ∧ B.f0 ≤ i ∧ i ≤ B.l0
    · rw [if_pos c4, if_pos c4, h i B.l1 (by omega)]
    rw [if_neg c4, if_neg c4, h i j hn]
  have n1 : ∀ i j, B.f0 - 1 ≤ i → i ≤ B.l0 + 1 → B.f1 - 1 ≤ j → j ≤ B.l1 + 1 → Near B i j := fun i j a b c d => ⟨a, b, c, d⟩
  obtain ⟨a1, a2, a3, a4⟩ := hn
  unfold fillDepth
  unfold fillCorners
  rw [key i j ⟨a1, a2, a3, a4⟩, key B.f0 j (n1 _ _ (by omega) (by omega) a3 a4), key B.l0 j (n1 _ _ (by omega) (by omega) a3 a4),
    key i B.f1 (n1 _ _ a1 a2 (by omega) (by omega)), key i B.l1 (n1 _ _ a1 a2 (by omega) (by omega)),
    key B.f0 B.f1 (n1 _ _ (by omega) (by omega) (by omega) (by omega)), key B.f0 B.l1 (n1 _ _ (by omega) (by omega) (by omega) (by omega)),
    key B.l0 B.f1 (n1 _ _ (by omega) (by omega) (by omega) (by omega)), key B.l0 B.l1 (n1 _ _ (by omega) (by omega) (by omega) (by omega))]

/-! ## The condition holds, for every component -/

/-- **C95**: on every side the patch shares with the boundary, every component satisfies `a u + b u_n = g` on the face, and the
ghost value is the only one that does. -/
theorem c95_condition {n : ℕ} (B : Box) (hB : B.f0 ≤ B.l0 ∧ B.f1 ≤ B.l1) (touch : Side → Bool) (coef : Side → Coef) (dx dy : ℝ)
    (hx : dx ≠ 0) (hy : dy ≠ 0) (hcx : ∀ s, 2 * (coef s).b + (coef s).a * dx ≠ 0) (hcy : ∀ s, 2 * (coef s).b + (coef s).a * dy ≠ 0)
    (u : Fin n → Field2) (d : Fin n) (uo : ℝ) :
    (touch .xlo = true → ∀ j, B.f1 ≤ j ∧ j ≤ B.l1 → (Holds (coef .xlo) dx (u d B.f0 j) uo ↔ uo = fill B touch coef dx dy u d (B.f0 - 1) j)) ∧
    (touch .xhi = true → ∀ j, B.f1 ≤ j ∧ j ≤ B.l1 → (Holds (coef .xhi) dx (u d B.l0 j) uo ↔ uo = fill B touch coef dx dy u d (B.l0 + 1) j)) ∧
    (touch .ylo = true → ∀ i, B.f0 ≤ i ∧ i ≤ B.l0 → (Holds (coef .ylo) dy (u d i B.f1) uo ↔ uo = fill B touch coef dx dy u d i (B.f1 - 1))) ∧
    (touch .yhi = true → ∀ i, B.f0 ≤ i ∧ i ≤ B.l0 → (Holds (coef .yhi) dy (u d i B.l1) uo ↔ uo = fill B touch coef dx dy u d i (B.l1 + 1))) := by
  unfold fill
  refine ⟨fun ht j hj => ?_, fun ht j hj => ?_, fun ht j hj => ?_, fun ht j hj => ?_⟩
  · rw [fill_xlo B touch coef dx dy _ j ht hj]; exact ghost_holds hx (hcx _) _ _
  · rw [fill_xhi B touch coef dx dy _ j ht hj hB.1]; exact ghost_holds hx (hcx _) _ _
  · rw [fill_ylo B touch coef dx dy _ j ht hj]; exact ghost_holds hy (hcy _) _ _
  · rw [fill_yhi B touch coef dx dy _ j ht hj hB.2]; exact ghost_holds hy (hcy _) _ _

/-- **C95**: the values inside the patch and all ghost cells beyond the first layer are left alone. -/
theorem c95_frame {n : ℕ} (B : Box) (hB : B.f0 ≤ B.l0 ∧ B.f1 ≤ B.l1) (touch : Side → Bool) (coef : Side → Coef) (dx dy : ℝ)
    (u : Fin n → Field2) (d : Fin n) (i j : ℤ) :
    ((B.f0 ≤ i ∧ i ≤ B.l0 ∧ B.f1 ≤ j ∧ j ≤ B.l1) → fill B touch coef dx dy u d i j = u d i j) ∧
    (¬ Near B i j → fill B touch coef dx dy u d i j = u d i j) :=
  ⟨fun h => fill_inside B touch coef dx dy (u d) i j h, fun h => fill_far B touch coef dx dy (u d) i j h hB⟩

/-- Zero-gradient sides repeat the interior value, in every component, corners included. -/
theorem c95_zero_gradient {n : ℕ} (B : Box) (hB : B.f0 ≤ B.l0 ∧ B.f1 ≤ B.l1) (touch : Side → Bool) (coef : Side → Coef) (dx dy : ℝ)
    (hz : ∀ s, ZeroGradient (coef s)) (ht : ∀ s, touch s = true) (u : Fin n → Field2) (d : Fin n) (i j : ℤ) (h : Near B i j) :
    fill B touch coef dx dy u d i j = u d (max B.f0 (min B.l0 i)) (max B.f1 (min B.l1 j)) := by
  unfold Near at h
  have hi : i = B.f0 - 1 ∨ i = B.l0 + 1 ∨ (B.f0 ≤ i ∧ i ≤ B.l0) := by omega
  have hj : j = B.f1 - 1 ∨ j = B.l1 + 1 ∨ (B.f1 ≤ j ∧ j ≤ B.l1) := by omega
  have gx : ∀ s w, ghost (coef s) dx w = w := fun s w => ghost_zero (hz s) dx w
  have gy : ∀ s w, ghost (coef s) dy w = w := fun s w => ghost_zero (hz s) dy w
  have hc0 : B.f0 - 1 ≠ B.l0 + 1 := by omega
  have hc1 : B.f1 - 1 ≠ B.l1 + 1 := by omega
  have m1 : max B.f0 (min B.l0 (B.f0 - 1)) = B.f0 := by omega
  have m2 : max B.f0 (min B.l0 (B.l0 + 1)) = B.l0 := by omega
  have m3 : max B.f1 (min B.l1 (B.f1 - 1)) = B.f1 := by omega
  have m4 : max B.f1 (min B.l1 (B.l1 + 1)) = B.l1 := by omega
  have m5 : B.f0 ≤ i ∧ i ≤ B.l0 → max B.f0 (min B.l0 i) = i := by omega
  have m6 : B.f1 ≤ j ∧ j ≤ B.l1 → max B.f1 (min B.l1 j) = j := by omega
  have ei : ∀ a b, (B.f0 ≤ a ∧ a ≤ B.l0 ∧ B.f1 ≤ b ∧ b ≤ B.l1) → fillEdges B touch coef dx dy (u d) a b = u d a b :=
    fun a b h => edges_inside B touch coef dx dy (u d) a b h
  obtain ⟨b0, b1⟩ := hB
  have L0 := edges_xlo B touch coef dx dy (u d) B.f1 (ht _) ⟨le_refl _, b1⟩
  have L1 := edges_xlo B touch coef dx dy (u d) B.l1 (ht _) ⟨b1, le_refl _⟩
  have H0 := edges_xhi B touch coef dx dy (u d) B.f1 (ht _) ⟨le_refl _, b1⟩ b0
  have H1 := edges_xhi B touch coef dx dy (u d) B.l1 (ht _) ⟨b1, le_refl _⟩ b0
  have l0 := edges_ylo B touch coef dx dy (u d) B.f0 (ht _) ⟨le_refl _, b0⟩
  have l1 := edges_ylo B touch coef dx dy (u d) B.l0 (ht _) ⟨b0, le_refl _⟩
  have h0 := edges_yhi B touch coef dx dy (u d) B.f0 (ht _) ⟨le_refl _, b0⟩ b1
  have h1 := edges_yhi B touch coef dx dy (u d) B.l0 (ht _) ⟨b0, le_refl _⟩ b1
  rw [gx] at L0 L1 H0 H1
  rw [gy] at l0 l1 h0 h1
  have c00 := ei B.f0 B.f1 ⟨le_refl _, b0, le_refl _, b1⟩
  have c01 := ei B.f0 B.l1 ⟨le_refl _, b0, b1, le_refl _⟩
  have c10 := ei B.l0 B.f1 ⟨b0, le_refl _, le_refl _, b1⟩
  have c11 := ei B.l0 B.l1 ⟨b0, le_refl _, b1, le_refl _⟩
  unfold fill
  rcases hi with rfl | rfl | hi <;> rcases hj with rfl | rfl | hj
  · rw [m1, m3]; unfold fillDepth fillCorners
    rw [if_pos ⟨ht _, ht _, rfl, rfl⟩, l0, L0, c00]; ring
  · rw [m1, m4]; unfold fillDepth fillCorners
    rw [if_neg (by omega), if_neg (by omega), if_pos ⟨ht _, ht _, rfl, rfl⟩, h0, L1, c01]; ring
  · rw [m1, m6 hj, fill_xlo B touch coef dx dy _ j (ht _) hj, gx]
  · rw [m2, m3]; unfold fillDepth fillCorners
    rw [if_neg (by omega), if_pos ⟨ht _, ht _, rfl, rfl⟩, l1, H0, c10]; ring
  · rw [m2, m4]; unfold fillDepth fillCorners
    rw [if_neg (by omega), if_neg (by omega), if_neg (by omega), if_pos ⟨ht _, ht _, rfl, rfl⟩, h1, H1, c11]; ring
  · rw [m2, m6 hj, fill_xhi B touch coef dx dy _ j (ht _) hj b0, gx]
  · rw [m5 hi, m3, fill_ylo B touch coef dx dy _ i (ht _) hi, gy]
  · rw [m5 hi, m4, fill_yhi B touch coef dx dy _ i (ht _) hi b1, gy]
  · rw [m5 hi, m6 hj, fill_inside B touch coef dx dy _ i j ⟨hi.1, hi.2, hj.1, hj.2⟩]

/-! ## One set of coefficients for all components -/

/-- **C95 fails** for vector fields with a fixed value: all components are given the same value on the face.  A quaternion gets
the squared norm `4 g^2` there, whatever the orientations inside: it is a rotation only for `g = 1/2` or `g = -1/2`.  Order parameters
of `n` phases add up to `n g`: to one only for `g = 1/n`. -/
theorem c95_violation_fixed_value {n : ℕ} (B : Box) (touch : Side → Bool) (coef : Side → Coef) (dx dy g : ℝ)
    (hx : dx ≠ 0) (ht : touch .xlo = true) (hc : FixedValue (coef .xlo) g) (u : Fin n → Field2) (j : ℤ) (hj : B.f1 ≤ j ∧ j ≤ B.l1) :
    (∀ d, face (u d B.f0 j) (fill B touch coef dx dy u d (B.f0 - 1) j) = g) ∧
    (∑ d, face (u d B.f0 j) (fill B touch coef dx dy u d (B.f0 - 1) j) = n * g) ∧
    (∑ d, face (u d B.f0 j) (fill B touch coef dx dy u d (B.f0 - 1) j) ^ 2 = n * g ^ 2) := by
  obtain ⟨ha, hb, hg⟩ := hc
  have e : ∀ d, face (u d B.f0 j) (fill B touch coef dx dy u d (B.f0 - 1) j) = g := by
    intro d
    unfold fill face
    rw [fill_xlo B touch coef dx dy _ j ht hj]
    unfold ghost
    rw [ha, hb, hg, mul_zero, zero_add, one_mul, div_add' _ _ _ hx, div_div, div_eq_iff (mul_ne_zero hx two_ne_zero)]
    ring
  refine ⟨e, ?_, ?_⟩
  · simp [e]
  · simp [e]

/-- With a fixed value the quaternion on the face is a rotation for two values of `g` only. -/
theorem c95_violation_quaternion (B : Box) (touch : Side → Bool) (coef : Side → Coef) (dx dy g : ℝ)
    (hx : dx ≠ 0) (ht : touch .xlo = true) (hc : FixedValue (coef .xlo) g) (q : Fin 4 → Field2) (j : ℤ) (hj : B.f1 ≤ j ∧ j ≤ B.l1) :
    ∑ d, face (q d B.f0 j) (fill B touch coef dx dy q d (B.f0 - 1) j) ^ 2 = 1 ↔ g = 1 / 2 ∨ g = -(1 / 2) := by
  rw [(c95_violation_fixed_value B touch coef dx dy g hx ht hc q j hj).2.2]
  constructor
  · intro h
    have h' : (g - 1 / 2) * (g + 1 / 2) = 0 := by push_cast at h; linarith
    rcases mul_eq_zero.1 h' with h | h
    · left; linarith
    · right; linarith
  · rintro (rfl | rfl) <;> norm_num

/-- For any coefficients, fractions that add up to one inside add up to one in the ghost cell exactly when `a = n g`. -/
theorem c95_sum {n : ℕ} (B : Box) (touch : Side → Bool) (coef : Side → Coef) (dx dy : ℝ)
    (hx : dx ≠ 0) (ht : touch .xlo = true) (hc : 2 * (coef .xlo).b + (coef .xlo).a * dx ≠ 0) (u : Fin n → Field2) (j : ℤ)
    (hj : B.f1 ≤ j ∧ j ≤ B.l1) (hs : ∑ d, u d B.f0 j = 1) :
    ∑ d, fill B touch coef dx dy u d (B.f0 - 1) j = 1 ↔ (coef .xlo).a = n * (coef .xlo).g := by
  have e : ∑ d, fill B touch coef dx dy u d (B.f0 - 1) j =
      (n * (2 * dx * (coef .xlo).g) + (2 * (coef .xlo).b - (coef .xlo).a * dx)) / (2 * (coef .xlo).b + (coef .xlo).a * dx) := by
    unfold fill
    simp only [fill_xlo B touch coef dx dy _ j ht hj, ghost]
    rw [← Finset.sum_div, Finset.sum_add_distrib, ← Finset.mul_sum (f := fun x => u x B.f0 j), hs]
    simp
  rw [e, div_eq_one_iff_eq hc]
  constructor
  · intro h
    have h' : 2 * dx * ((coef .xlo).a - n * (coef .xlo).g) = 0 := by linarith
    rcases mul_eq_zero.1 h' with h | h
    · rcases mul_eq_zero.1 h with h | h
      · norm_num at h
      · exact absurd h hx
    · linarith
  · intro h; rw [h]; ring

/-! ## Fluxes through the boundary -/

/-- Flux between two cells next to a boundary face of gradient type: the prescribed gradient times the coefficient. -/
theorem c95_prescribed_flux (B : Box) (hB : B.f0 ≤ B.l0) (touch : Side → Bool) (coef : Side → Coef) (dx dy : ℝ) (hx : dx ≠ 0)
    (ha : (coef .xlo).a = 0 ∧ (coef .xhi).a = 0) (hb : (coef .xlo).b ≠ 0 ∧ (coef .xhi).b ≠ 0) (u : Field2) (j : ℤ)
    (hj : B.f1 ≤ j ∧ j ≤ B.l1) :
    (touch .xlo = true → (fillDepth B touch coef dx dy u B.f0 j - fillDepth B touch coef dx dy u (B.f0 - 1) j) / dx =
      -((coef .xlo).g / (coef .xlo).b)) ∧
    (touch .xhi = true → (fillDepth B touch coef dx dy u (B.l0 + 1) j - fillDepth B touch coef dx dy u B.l0 j) / dx =
      (coef .xhi).g / (coef .xhi).b) := by
  obtain ⟨b1, b2⟩ := hb
  constructor <;> intro ht
  · rw [fill_xlo B touch coef dx dy _ j ht hj, fill_inside B touch coef dx dy u B.f0 j ⟨le_refl _, hB, hj.1, hj.2⟩]
    unfold ghost
    rw [ha.1]
    field_simp
    ring
  · rw [fill_xhi B touch coef dx dy _ j ht hj hB, fill_inside B touch coef dx dy u B.l0 j ⟨hB, le_refl _, hj.1, hj.2⟩]
    unfold ghost
    rw [ha.2]
    field_simp
    ring

/-- The fluxes computed by the three stencils. -/
noncomputable def stencilX (k : Fin 3) (B : Box) (dx : ℝ) (n : ℕ) (data d0 : ℕ → Field2) (i : ℕ) : Field2 :=
  match k with
  | 0 => addFluxX dx n data d0 (fun _ _ _ => 0) i
  | 1 => addFluxIsoX dx n data d0 (fun _ _ _ => 0) i
  | 2 => addFlux4X B.f0 B.l0 true true dx n data d0 (fun _ _ _ => 0) i

@[inherit_doc stencilX]
noncomputable def stencilY (k : Fin 3) (B : Box) (dy : ℝ) (n : ℕ) (data d1 : ℕ → Field2) (i : ℕ) : Field2 :=
  match k with
  | 0 => addFluxY dy n data d1 (fun _ _ _ => 0) i
  | 1 => addFluxIsoY dy n data d1 (fun _ _ _ => 0) i
  | 2 => addFlux4Y B.f1 B.l1 true true dy n data d1 (fun _ _ _ => 0) i

/-- First ghost layer equal to the cells next to it, corners included. -/
def Repeats (B : Box) (v : Field2) : Prop := ∀ i j, Near B i j → v i j = v (max B.f0 (min B.l0 i)) (max B.f1 (min B.l1 j))

/-- Zero-gradient sides give such fields, and so do quantities computed cell by cell from them (phase compositions, for instance). -/
theorem c95_repeats {n : ℕ} (B : Box) (hB : B.f0 ≤ B.l0 ∧ B.f1 ≤ B.l1) (touch : Side → Bool) (coef : Side → Coef) (dx dy : ℝ)
    (hz : ∀ s, ZeroGradient (coef s)) (ht : ∀ s, touch s = true) (u : Fin n → Field2) (d : Fin n) :
    Repeats B (fill B touch coef dx dy u d) ∧
      ∀ f : (Fin n → ℝ) → ℝ, Repeats B (fun i j => f (fun e => fill B touch coef dx dy u e i j)) := by
  suffices h : ∀ d, Repeats B (fill B touch coef dx dy u d) by
    refine ⟨h d, fun f i j hn => ?_⟩
    beta_reduce
    congr 1
    funext e
    exact h e i j hn
  intro d i j h
  rw [c95_zero_gradient B hB touch coef dx dy hz ht u d i j h]
  exact ((c95_frame B hB touch coef dx dy u d _ _).1 (by omega)).symm

theorem rep_xlo {B : Box} {v : Field2} (h : Repeats B v) (hB : B.f0 ≤ B.l0 ∧ B.f1 ≤ B.l1) (j : ℤ) (hj : B.f1 - 1 ≤ j ∧ j ≤ B.l1 + 1) :
    v (B.f0 - 1) j = v B.f0 j := by
  rw [h (B.f0 - 1) j (by unfold Near; omega), h B.f0 j (by unfold Near; omega)]
  congr 1
  omega

theorem rep_xhi {B : Box} {v : Field2} (h : Repeats B v) (hB : B.f0 ≤ B.l0 ∧ B.f1 ≤ B.l1) (j : ℤ) (hj : B.f1 - 1 ≤ j ∧ j ≤ B.l1 + 1) :
    v (B.l0 + 1) j = v B.l0 j := by
  rw [h (B.l0 + 1) j (by unfold Near; omega), h B.l0 j (by unfold Near; omega)]
  congr 1
  omega

theorem rep_ylo {B : Box} {v : Field2} (h : Repeats B v) (hB : B.f0 ≤ B.l0 ∧ B.f1 ≤ B.l1) (i : ℤ) (hi : B.f0 - 1 ≤ i ∧ i ≤ B.l0 + 1) :
    v i (B.f1 - 1) = v i B.f1 := by
  rw [h i (B.f1 - 1) (by unfold Near; omega), h i B.f1 (by unfold Near; omega)]
  congr 1
  omega

theorem rep_yhi {B : Box} {v : Field2} (h : Repeats B v) (hB : B.f0 ≤ B.l0 ∧ B.f1 ≤ B.l1) (i : ℤ) (hi : B.f0 - 1 ≤ i ∧ i ≤ B.l0 + 1) :
    v i (B.l1 + 1) = v i B.l1 := by
  rw [h i (B.l1 + 1) (by unfold Near; omega), h i B.l1 (by unfold Near; omega)]
  congr 1
  omega

/-- **C95**: with zero-gradient sides nothing flows through the boundary, for each of the three stencils, any number of species and
any matrix of diffusion coefficients. -/
theorem c95_no_flux (k : Fin 3) (B : Box) (hB : B.f0 ≤ B.l0 ∧ B.f1 ≤ B.l1) (dx dy : ℝ) (n : ℕ) (data d0 d1 : ℕ → Field2)
    (hr : ∀ c ∈ Finset.Icc 1 n, Repeats B (data c)) (i : ℕ) :
    (∀ j, B.f1 ≤ j ∧ j ≤ B.l1 → stencilX k B dx n data d0 i B.f0 j = 0 ∧ stencilX k B dx n data d0 i (B.l0 + 1) j = 0) ∧
    (∀ x, B.f0 ≤ x ∧ x ≤ B.l0 → stencilY k B dy n data d1 i x B.f1 = 0 ∧ stencilY k B dy n data d1 i x (B.l1 + 1) = 0) := by
  have xl := fun c (hc : c ∈ Finset.Icc 1 n) => rep_xlo (hr c hc) hB
  have xh := fun c (hc : c ∈ Finset.Icc 1 n) => rep_xhi (hr c hc) hB
  have yl := fun c (hc : c ∈ Finset.Icc 1 n) => rep_ylo (hr c hc) hB
  have yh := fun c (hc : c ∈ Finset.Icc 1 n) => rep_yhi (hr c hc) hB
  fin_cases k
  · refine ⟨fun j hj => ⟨?_, ?_⟩, fun x hx => ⟨?_, ?_⟩⟩ <;>
      simp only [stencilX, stencilY, addFluxX, addFluxY, zero_add, add_sub_cancel_right] <;>
      refine Finset.sum_eq_zero fun c hc => ?_
    · rw [xl c hc j (by omega)]; ring
    · rw [xh c hc j (by omega)]; ring
    · rw [yl c hc x (by omega)]; ring
    · rw [yh c hc x (by omega)]; ring
  · refine ⟨fun j hj => ⟨?_, ?_⟩, fun x hx => ⟨?_, ?_⟩⟩ <;>
      simp only [stencilX, stencilY, addFluxIsoX, addFluxIsoY, zero_add, add_sub_cancel_right] <;>
      refine Finset.sum_eq_zero fun c hc => ?_
    · rw [xl c hc j (by omega), xl c hc (j + 1) (by omega), xl c hc (j - 1) (by omega)]; ring
    · rw [xh c hc j (by omega), xh c hc (j + 1) (by omega), xh c hc (j - 1) (by omega)]; ring
    · rw [yl c hc x (by omega), yl c hc (x + 1) (by omega), yl c hc (x - 1) (by omega)]; ring
    · rw [yh c hc x (by omega), yh c hc (x + 1) (by omega), yh c hc (x - 1) (by omega)]; ring
  · refine ⟨fun j hj => ⟨?_, ?_⟩, fun x hx => ⟨?_, ?_⟩⟩ <;>
      simp only [stencilX, stencilY, addFlux4X, addFlux4Y, zero_add, add_sub_cancel_right] <;>
      refine Finset.sum_eq_zero fun c hc => ?_
    · rw [if_pos (Or.inl ⟨trivial, trivial⟩), xl c hc j (by omega)]; ring
    · rw [if_pos (Or.inr ⟨trivial, trivial⟩), xh c hc j (by omega)]; ring
    · rw [if_pos (Or.inl ⟨trivial, trivial⟩), yl c hc x (by omega)]; ring
    · rw [if_pos (Or.inr ⟨trivial, trivial⟩), yh c hc x (by omega)]; ring

/-- Total of a divergence over a box: what flows through its boundary. -/
theorem total_rhs (N M : ℕ) (f0 f1 : ℤ) (dx dy m : ℝ) (F G : Field2) :
    total N M f0 f1 (rhs2 dx dy m F G) =
      m * (1 / dx * (∑ b ∈ Finset.range M, (F (f0 + N) (f1 + (b : ℤ)) - F f0 (f1 + (b : ℤ))))
        + 1 / dy * (∑ a ∈ Finset.range N, (G (f0 + (a : ℤ)) (f1 + M) - G (f0 + (a : ℤ)) f1))) := by
  have hx : total N M f0 f1 (fun i j => F (i + 1) j - F i j) = ∑ b ∈ Finset.range M, (F (f0 + N) (f1 + (b : ℤ)) - F f0 (f1 + (b : ℤ))) := by
    unfold total
    exact Finset.sum_congr rfl fun b _ => telescope (fun z => F z (f1 + (b : ℤ))) f0 N
  have hy : total N M f0 f1 (fun i j => G i (j + 1) - G i j) = ∑ a ∈ Finset.range N, (G (f0 + (a : ℤ)) (f1 + M) - G (f0 + (a : ℤ)) f1) := by
    unfold total
    rw [Finset.sum_comm]
    exact Finset.sum_congr rfl fun a _ => telescope (fun z => G (f0 + (a : ℤ)) z) f1 M
  rw [← hx, ← hy, ← total_mul, ← total_mul, ← total_add, ← total_mul]
  exact total_congr fun i j => by unfold rhs2; ring

/-- **C95**: a run in a closed box (zero-gradient sides) conserves the total of every species. -/
theorem c95_conserves (k : Fin 3) (f0 f1 : ℤ) (N M : ℕ) (hN : 0 < N) (hM : 0 < M) (dx dy mob : ℝ) (n : ℕ) (data d0 d1 : ℕ → Field2)
    (hr : ∀ c ∈ Finset.Icc 1 n, Repeats (boxOf f0 f1 N M) (data c)) (i : ℕ) :
    total N M f0 f1 (rhs2 dx dy mob (stencilX k (boxOf f0 f1 N M) dx n data d0 i) (stencilY k (boxOf f0 f1 N M) dy n data d1 i)) = 0 := by
  obtain ⟨hX, hY⟩ := c95_no_flux k (boxOf f0 f1 N M) (by unfold boxOf; simp only; omega) dx dy n data d0 d1 hr i
  have e0 : (boxOf f0 f1 N M).l0 + 1 = f0 + N := by unfold boxOf; simp only; omega
  have e1 : (boxOf f0 f1 N M).l1 + 1 = f1 + M := by unfold boxOf; simp only; omega
  rw [e0] at hX
  rw [e1] at hY
  rw [total_rhs]
  rw [Finset.sum_eq_zero (fun b hb => ?_), Finset.sum_eq_zero (fun a ha => ?_)]
  · ring
  · rw [Finset.mem_range] at ha
    have := hY (f0 + a) (by unfold boxOf; simp only; omega)
    rw [this.2, show stencilY k (boxOf f0 f1 N M) dy n data d1 i (f0 + a) f1 = 0 from this.1, sub_zero]
  · rw [Finset.mem_range] at hb
    have := hX (f1 + b) (by unfold boxOf; simp only; omega)
    rw [this.2, show stencilX k (boxOf f0 f1 N M) dx n data d0 i f0 (f1 + b) = 0 from this.1, sub_zero]

/-! ## The second layer of ghost cells -/

/-- The fourth-order stencil never reads beyond the first layer on a side that touches the boundary. -/
theorem c95_fourth_order_reads (B : Box) (dx dy : ℝ) (n : ℕ) (data data' d0 d1 : ℕ → Field2)
    (h : ∀ c i j, Near B i j → data c i j = data' c i j) (c : ℕ) :
    (∀ i j, B.f0 ≤ i ∧ i ≤ B.l0 + 1 → B.f1 ≤ j ∧ j ≤ B.l1 → stencilX 2 B dx n data d0 c i j = stencilX 2 B dx n data' d0 c i j) ∧
    (∀ i j, B.f0 ≤ i ∧ i ≤ B.l0 → B.f1 ≤ j ∧ j ≤ B.l1 + 1 → stencilY 2 B dy n data d1 c i j = stencilY 2 B dy n data' d1 c i j) := by
  unfold Near at h
  constructor
  · intro i j hi hj
    simp only [stencilX, addFlux4X]
    congr 1
    refine Finset.sum_congr rfl fun k _ => ?_
    by_cases hb : (True ∧ i = B.f0) ∨ (True ∧ i = B.l0 + 1)
    on_goal 2 => have h1 : i ≠ B.f0 ∧ i ≠ B.l0 + 1 := ⟨fun e => hb (Or.inl ⟨trivial, e⟩), fun e => hb (Or.inr ⟨trivial, e⟩)⟩
    · rw [if_pos hb, if_pos hb, h k i j (by omega), h k (i - 1) j (by omega)]
    · rw [if_neg hb, if_neg hb, h k i j (by omega), h k (i - 1) j (by omega), h k (i + 1) j (by omega), h k (i - 2) j (by omega)]
  · intro i j hi hj
    simp only [stencilY, addFlux4Y]
    congr 1
    refine Finset.sum_congr rfl fun k _ => ?_
    by_cases hb : (True ∧ j = B.f1) ∨ (True ∧ j = B.l1 + 1)
    on_goal 2 => have h1 : j ≠ B.f1 ∧ j ≠ B.l1 + 1 := ⟨fun e => hb (Or.inl ⟨trivial, e⟩), fun e => hb (Or.inr ⟨trivial, e⟩)⟩
    · rw [if_pos hb, if_pos hb, h k i j (by omega), h k i (j - 1) (by omega)]
    · rw [if_neg hb, if_neg hb, h k i j (by omega), h k i (j - 1) (by omega), h k i (j + 1) (by omega), h k i (j - 2) (by omega)]

/-- Neither does the upwind stencil of the moving frame. -/
theorem c95_upwind_reads (dx vel : ℝ) (f l : ℤ) (u v : ℤ → ℝ) (h : ∀ i, f - 1 ≤ i → i ≤ l + 1 → u i = v i) (i : ℤ) (hi : f ≤ i ∧ i ≤ l) :
    convectUpwind3 dx vel u true l i = convectUpwind3 dx vel v true l i := by
  unfold convectUpwind3
  simp only
  by_cases hb : True ∧ i = l
  on_goal 2 => have h1 : i ≠ l := fun e => hb ⟨trivial, e⟩
  · rw [if_pos hb, if_pos hb, h (l + 1) (by omega) (by omega), h (l - 1) (by omega) (by omega)]
  · rw [if_neg hb, if_neg hb, h (i - 1) (by omega) (by omega), h i (by omega) (by omega), h (i + 1) (by omega) (by omega),
      h (i + 2) (by omega) (by omega)]

/-- Total rate of a conserved field with potential `mu` in a box. -/
theorem total_potential (N M : ℕ) (f0 f1 : ℤ) (dx dy m mob : ℝ) (d0 d1 mu : Field2) :
    total N M f0 f1 (rhs2 dx dy m (fun i j => scatterX f0 (f0 + N - 1) f1 (f1 + M - 1) dx mob d0 mu (fun _ => 0) (i, j))
      (fun i j => scatterY f0 (f0 + N - 1) f1 (f1 + M - 1) dy mob d1 mu (fun _ => 0) (i, j))) =
    m * mob * (1 / dx * (∑ b ∈ Finset.range M, (d0 (f0 + N) (f1 + (b : ℤ)) * ((mu (f0 + N) (f1 + (b : ℤ)) - mu (f0 + N - 1) (f1 + (b : ℤ))) / dx)
          - d0 f0 (f1 + (b : ℤ)) * ((mu f0 (f1 + (b : ℤ)) - mu (f0 - 1) (f1 + (b : ℤ))) / dx)))
        + 1 / dy * (∑ a ∈ Finset.range N, (d1 (f0 + (a : ℤ)) (f1 + M) * ((mu (f0 + (a : ℤ)) (f1 + M) - mu (f0 + (a : ℤ)) (f1 + M - 1)) / dy)
          - d1 (f0 + (a : ℤ)) f1 * ((mu (f0 + (a : ℤ)) f1 - mu (f0 + (a : ℤ)) (f1 - 1)) / dy)))) := by
  rw [← mul_one (m * mob), mul_assoc (m * mob), one_mul]
  have e := total_rhs N M f0 f1 dx dy (m * mob) (fun i j => d0 i j * ((mu i j - mu (i - 1) j) / dx)) (fun i j => d1 i j * ((mu i j - mu i (j - 1)) / dy))
  rw [← e]
  unfold total
  refine Finset.sum_congr rfl fun b hb => Finset.sum_congr rfl fun a ha => ?_
  rw [Finset.mem_range] at ha hb
  rw [rate_eq f0 (f0 + N - 1) f1 (f1 + M - 1) dx dy m mob d0 d1 mu _ _ (by omega)]
  unfold rhs2
  beta_reduce
  rw [add_sub_cancel_right, add_sub_cancel_right]
  simp only [div_eq_mul_inv]
  ring

/-- Cells whose potential enters the rate in the box. -/
def Cross (N M : ℕ) (f0 f1 i j : ℤ) : Prop :=
  (f0 - 1 ≤ i ∧ i ≤ f0 + N ∧ f1 ≤ j ∧ j < f1 + M) ∨ (f0 ≤ i ∧ i < f0 + N ∧ f1 - 1 ≤ j ∧ j ≤ f1 + M)

/-- A value of the second layer enters the total through the potential in the first layer. -/
theorem total_shift (N M : ℕ) (hN : 0 < N) (hM : 0 < M) (f0 f1 : ℤ) (dx dy m mob : ℝ) (d0 d1 mu mu' : Field2) (s : ℝ)
    (h : ∀ i j, Cross N M f0 f1 i j → mu' i j = mu i j + if i = f0 - 1 ∧ j = f1 then s else 0) :
    total N M f0 f1 (rhs2 dx dy m (fun i j => scatterX f0 (f0 + N - 1) f1 (f1 + M - 1) dx mob d0 mu' (fun _ => 0) (i, j))
      (fun i j => scatterY f0 (f0 + N - 1) f1 (f1 + M - 1) dy mob d1 mu' (fun _ => 0) (i, j))) =
    total N M f0 f1 (rhs2 dx dy m (fun i j => scatterX f0 (f0 + N - 1) f1 (f1 + M - 1) dx mob d0 mu (fun _ => 0) (i, j))
      (fun i j => scatterY f0 (f0 + N - 1) f1 (f1 + M - 1) dy mob d1 mu (fun _ => 0) (i, j)))
      + m * mob * (1 / dx * (d0 f0 f1 * (s / dx))) := by
  have same : ∀ i j, Cross N M f0 f1 i j → f0 ≤ i → mu' i j = mu i j := by
    intro i j hc hi
    rw [h i j hc, if_neg (by omega), add_zero]
  rw [total_potential, total_potential]
  have hx : ∑ b ∈ Finset.range M, (d0 (f0 + N) (f1 + (b : ℤ)) * ((mu' (f0 + N) (f1 + (b : ℤ)) - mu' (f0 + N - 1) (f1 + (b : ℤ))) / dx)
          - d0 f0 (f1 + (b : ℤ)) * ((mu' f0 (f1 + (b : ℤ)) - mu' (f0 - 1) (f1 + (b : ℤ))) / dx)) =
      ∑ b ∈ Finset.range M, ((d0 (f0 + N) (f1 + (b : ℤ)) * ((mu (f0 + N) (f1 + (b : ℤ)) - mu (f0 + N - 1) (f1 + (b : ℤ))) / dx)
          - d0 f0 (f1 + (b : ℤ)) * ((mu f0 (f1 + (b : ℤ)) - mu (f0 - 1) (f1 + (b : ℤ))) / dx))
          + if b = 0 then d0 f0 f1 * (s / dx) else 0) := by
    refine Finset.sum_congr rfl fun b hb => ?_
    rw [Finset.mem_range] at hb
    rw [same (f0 + N) (f1 + b) (by unfold Cross; omega) (by omega), same (f0 + N - 1) (f1 + b) (by unfold Cross; omega) (by omega),
      same f0 (f1 + b) (by unfold Cross; omega) (by omega), h (f0 - 1) (f1 + b) (by unfold Cross; omega)]
    by_cases hb0 : b = 0
    · subst hb0
      simp only [Nat.cast_zero, add_zero, true_and, if_true, and_self]
      ring
    · rw [if_neg (by omega), if_neg hb0]
      ring
  have hy : ∑ a ∈ Finset.range N, (d1 (f0 + (a : ℤ)) (f1 + M) * ((mu' (f0 + (a : ℤ)) (f1 + M) - mu' (f0 + (a : ℤ)) (f1 + M - 1)) / dy)
          - d1 (f0 + (a : ℤ)) f1 * ((mu' (f0 + (a : ℤ)) f1 - mu' (f0 + (a : ℤ)) (f1 - 1)) / dy)) =
      ∑ a ∈ Finset.range N, (d1 (f0 + (a : ℤ)) (f1 + M) * ((mu (f0 + (a : ℤ)) (f1 + M) - mu (f0 + (a : ℤ)) (f1 + M - 1)) / dy)
          - d1 (f0 + (a : ℤ)) f1 * ((mu (f0 + (a : ℤ)) f1 - mu (f0 + (a : ℤ)) (f1 - 1)) / dy)) := by
    refine Finset.sum_congr rfl fun a ha => ?_
    rw [Finset.mem_range] at ha
    rw [same _ _ (by unfold Cross; omega) (by omega), same _ _ (by unfold Cross; omega) (by omega),
      same _ _ (by unfold Cross; omega) (by omega), same _ _ (by unfold Cross; omega) (by omega)]
  rw [hx, hy, Finset.sum_add_distrib, Finset.sum_ite_eq' (Finset.range M) 0 (fun _ => d0 f0 f1 * (s / dx)), if_pos (Finset.mem_range.2 hM)]
  ring

/-- One value of the second layer changed. -/
def poke (c : Field2) (f0 f1 : ℤ) (t : ℝ) : Field2 := fun i j => c i j + if i = f0 - 2 ∧ j = f1 then t else 0

theorem fill_poke (N M : ℕ) (hN : 0 < N) (hM : 0 < M) (f0 f1 : ℤ) (touch : Side → Bool) (coef : Side → Coef) (dx dy : ℝ) (c : Field2) (t : ℝ) :
    fillDepth (boxOf f0 f1 N M) touch coef dx dy (poke c f0 f1 t) = poke (fillDepth (boxOf f0 f1 N M) touch coef dx dy c) f0 f1 t := by
  have hB : (boxOf f0 f1 N M).f0 ≤ (boxOf f0 f1 N M).l0 ∧ (boxOf f0 f1 N M).f1 ≤ (boxOf f0 f1 N M).l1 := by unfold boxOf; simp only; omega
  funext i j
  by_cases hn : Near (boxOf f0 f1 N M) i j
  · rw [fill_congr _ touch coef dx dy (poke c f0 f1 t) c hB (fun a b hab => ?_) i j hn]
    · unfold poke
      unfold Near boxOf at hn
      simp only at hn
      rw [if_neg (by omega), add_zero]
    · unfold poke
      unfold Near boxOf at hab
      simp only at hab
      rw [if_neg (by omega), add_zero]
  · rw [fill_far _ touch coef dx dy _ i j hn hB]
    unfold poke
    rw [fill_far _ touch coef dx dy _ i j hn hB]

theorem lap2_poke (c : Field2) (f0 f1 : ℤ) (t dx dy : ℝ) (i j : ℤ) (hi : f0 - 1 ≤ i) :
    lap2 dx dy (poke c f0 f1 t) i j = lap2 dx dy c i j + if i = f0 - 1 ∧ j = f1 then 1 / dx * (1 / dx) * t else 0 := by
  unfold lap2 poke
  rw [if_neg (by omega), if_neg (show ¬ (i + 1 = f0 - 2 ∧ j = f1) by omega), if_neg (show ¬ (i = f0 - 2 ∧ j - 1 = f1) by omega),
    if_neg (show ¬ (i = f0 - 2 ∧ j + 1 = f1) by omega)]
  by_cases h : i = f0 - 1 ∧ j = f1
  · rw [if_pos (show i - 1 = f0 - 2 ∧ j = f1 by omega), if_pos h]; ring
  · rw [if_neg (show ¬ (i - 1 = f0 - 2 ∧ j = f1) by omega), if_neg h]; ring

/-- **C95 fails** for the Cahn-Hilliard model: it uses the potential in the ghost cells, hence the composition in the second layer
of ghost cells, which no boundary condition sets.  Whatever the conditions prescribed on the four sides and whatever the state in the
box and the first layer, every total rate is obtained for some content of the second layer; so a closed box need not conserve the
composition. -/
theorem c95_violation_cahn_hilliard (N M : ℕ) (hN : 0 < N) (hM : 0 < M) (f0 f1 : ℤ) (touch : Side → Bool) (coef : Side → Coef)
    (dx dy m ca cb w kappa : ℝ) (hx : dx ≠ 0) (hm : m ≠ 0) (hk : kappa ≠ 0) (c : Field2) (R : ℝ) :
    ∃ c' : Field2, (∀ i j, Near (boxOf f0 f1 N M) i j → c' i j = c i j) ∧
      total N M f0 f1 (chRate f0 (f0 + N - 1) f1 (f1 + M - 1) dx dy m ca cb w kappa (fillDepth (boxOf f0 f1 N M) touch coef dx dy c')) = R := by
  have key : ∀ t, total N M f0 f1 (chRate f0 (f0 + N - 1) f1 (f1 + M - 1) dx dy m ca cb w kappa
        (fillDepth (boxOf f0 f1 N M) touch coef dx dy (poke c f0 f1 t))) =
      total N M f0 f1 (chRate f0 (f0 + N - 1) f1 (f1 + M - 1) dx dy m ca cb w kappa (fillDepth (boxOf f0 f1 N M) touch coef dx dy c))
        + m * 1 * (1 / dx * (1 * (-(kappa * (1 / dx * (1 / dx) * t)) / dx))) := by
    intro t
    rw [fill_poke N M hN hM]
    unfold chRate
    simp only
    refine total_shift N M hN hM f0 f1 dx dy m 1 (fun _ _ => 1) (fun _ _ => 1) _ _ _ fun i j hc => ?_
    have hi : f0 - 1 ≤ i := by unfold Cross at hc; omega
    unfold muCH
    rw [lap2_poke _ f0 f1 t dx dy i j hi]
    have e : poke (fillDepth (boxOf f0 f1 N M) touch coef dx dy c) f0 f1 t i j = fillDepth (boxOf f0 f1 N M) touch coef dx dy c i j := by
      unfold poke
      rw [if_neg (by omega), add_zero]
    rw [e]
    by_cases h : i = f0 - 1 ∧ j = f1
    · rw [if_pos h, if_pos h]; ring
    · rw [if_neg h, if_neg h]; ring
  refine ⟨poke c f0 f1 ((total N M f0 f1 (chRate f0 (f0 + N - 1) f1 (f1 + M - 1) dx dy m ca cb w kappa
    (fillDepth (boxOf f0 f1 N M) touch coef dx dy c)) - R) * dx ^ 4 / (m * kappa)), fun i j hn => ?_, ?_⟩
  · unfold poke
    unfold Near boxOf at hn
    simp only at hn
    rw [if_neg (by omega), add_zero]
  · rw [key]
    field_simp
    ring

/-- **C95 fails** for the sintering model in the same way, where the diffusion coefficient of the boundary face is not zero. -/
theorem c95_violation_sintering (N M : ℕ) (hN : 0 < N) (hM : 0 < M) (f0 f1 : ℤ) (touch : Side → Bool) (coef : Side → Coef)
    (dx dy m a b beta : ℝ) (d0 d1 : Field2) (norder : ℕ) (phi : ℕ → Field2) (hx : dx ≠ 0) (hm : m ≠ 0) (hk : beta ≠ 0) (hd : d0 f0 f1 ≠ 0)
    (c : Field2) (R : ℝ) :
    ∃ c' : Field2, (∀ i j, Near (boxOf f0 f1 N M) i j → c' i j = c i j) ∧
      total N M f0 f1 (sinterConcRate f0 (f0 + N - 1) f1 (f1 + M - 1) dx dy m a b beta d0 d1 norder
        (fillDepth (boxOf f0 f1 N M) touch coef dx dy c') phi) = R := by
  have key : ∀ t, total N M f0 f1 (sinterConcRate f0 (f0 + N - 1) f1 (f1 + M - 1) dx dy m a b beta d0 d1 norder
        (fillDepth (boxOf f0 f1 N M) touch coef dx dy (poke c f0 f1 t)) phi) =
      total N M f0 f1 (sinterConcRate f0 (f0 + N - 1) f1 (f1 + M - 1) dx dy m a b beta d0 d1 norder
        (fillDepth (boxOf f0 f1 N M) touch coef dx dy c) phi)
        + m * m * (1 / dx * (d0 f0 f1 * (-(beta * (1 / dx * (1 / dx) * t)) / dx))) := by
    intro t
    rw [fill_poke N M hN hM]
    unfold sinterConcRate
    simp only
    refine total_shift N M hN hM f0 f1 dx dy m m d0 d1 _ _ _ fun i j hc => ?_
    have hi : f0 - 1 ≤ i := by unfold Cross at hc; omega
    unfold muWang
    rw [lap2_poke _ f0 f1 t dx dy i j hi]
    have e : poke (fillDepth (boxOf f0 f1 N M) touch coef dx dy c) f0 f1 t i j = fillDepth (boxOf f0 f1 N M) touch coef dx dy c i j := by
      unfold poke
      rw [if_neg (by omega), add_zero]
    rw [e]
    by_cases h : i = f0 - 1 ∧ j = f1
    · rw [if_pos h, if_pos h]; ring
    · rw [if_neg h, if_neg h]; ring
  refine ⟨poke c f0 f1 ((total N M f0 f1 (sinterConcRate f0 (f0 + N - 1) f1 (f1 + M - 1) dx dy m a b beta d0 d1 norder
    (fillDepth (boxOf f0 f1 N M) touch coef dx dy c) phi) - R) * dx ^ 4 / (m ^ 2 * beta * d0 f0 f1)), fun i j hn => ?_, ?_⟩
  · unfold poke
    unfold Near boxOf at hn
    simp only at hn
    rw [if_neg (by omega), add_zero]
  · rw [key]
    field_simp
    ring

/-- Second layer equal to the second cells inside. -/
def Mirrors (N M : ℕ) (f0 f1 : ℤ) (v : Field2) : Prop :=
  (∀ j, f1 ≤ j → j < f1 + M → v (f0 - 2) j = v (f0 + 1) j ∧ v (f0 + N + 1) j = v (f0 + N - 2) j) ∧
  (∀ i, f0 ≤ i → i < f0 + N → v i (f1 - 2) = v i (f1 + 1) ∧ v i (f1 + M + 1) = v i (f1 + M - 2))

/-- What holds: a closed box conserves the composition of the Cahn-Hilliard model when the second layer happens to mirror the
inside. -/
theorem c95_cahn_hilliard_conserves_partial (N M : ℕ) (hN : 0 < N) (hM : 0 < M) (f0 f1 : ℤ) (dx dy m ca cb w kappa : ℝ) (v : Field2)
    (hr : Repeats (boxOf f0 f1 N M) v) (hm : Mirrors N M f0 f1 v) :
    total N M f0 f1 (chRate f0 (f0 + N - 1) f1 (f1 + M - 1) dx dy m ca cb w kappa v) = 0 := by
  have hB : (boxOf f0 f1 N M).f0 ≤ (boxOf f0 f1 N M).l0 ∧ (boxOf f0 f1 N M).f1 ≤ (boxOf f0 f1 N M).l1 := by unfold boxOf; simp only; omega
  have xl : ∀ j, f1 - 1 ≤ j ∧ j ≤ f1 + M → v (f0 - 1) j = v f0 j := fun j hj => rep_xlo hr hB j (by unfold boxOf; simp only; omega)
  have yl : ∀ i, f0 - 1 ≤ i ∧ i ≤ f0 + N → v i (f1 - 1) = v i f1 := fun i hi => rep_ylo hr hB i (by unfold boxOf; simp only; omega)
  have xh : ∀ j, f1 - 1 ≤ j ∧ j ≤ f1 + M → v (f0 + N) j = v (f0 + N - 1) j := fun j hj => by
    have := rep_xhi hr hB j (by unfold boxOf; simp only; omega)
    unfold boxOf at this
    simpa only [sub_add_cancel] using this
  have yh : ∀ i, f0 - 1 ≤ i ∧ i ≤ f0 + N → v i (f1 + M) = v i (f1 + M - 1) := fun i hi => by
    have := rep_yhi hr hB i (by unfold boxOf; simp only; omega)
    unfold boxOf at this
    simpa only [sub_add_cancel] using this
  unfold chRate
  simp only
  rw [total_potential]
  rw [Finset.sum_eq_zero (fun b hb => ?_), Finset.sum_eq_zero (fun a ha => ?_)]
  · ring
  · rw [Finset.mem_range] at ha
    have e1 : muCH ca cb w kappa dx dy v (f0 + a) (f1 - 1) = muCH ca cb w kappa dx dy v (f0 + a) f1 := by
      unfold muCH lap2
      simp only
      rw [show f1 - 1 - 1 = f1 - 2 by ring, show f1 - 1 + 1 = f1 by ring, (hm.2 (f0 + a) (by omega) (by omega)).1, yl (f0 + a) (by omega),
        yl (f0 + a - 1) (by omega), yl (f0 + a + 1) (by omega)]
      ring
    have e2 : muCH ca cb w kappa dx dy v (f0 + a) (f1 + M) = muCH ca cb w kappa dx dy v (f0 + a) (f1 + M - 1) := by
      unfold muCH lap2
      simp only
      rw [show f1 + (M : ℤ) - 1 - 1 = f1 + M - 2 by ring, show f1 + (M : ℤ) - 1 + 1 = f1 + M by ring, (hm.2 (f0 + a) (by omega) (by omega)).2,
        yh (f0 + a) (by omega), yh (f0 + a - 1) (by omega), yh (f0 + a + 1) (by omega)]
      ring
    rw [e1, e2]
    ring
  · rw [Finset.mem_range] at hb
    have e1 : muCH ca cb w kappa dx dy v (f0 - 1) (f1 + b) = muCH ca cb w kappa dx dy v f0 (f1 + b) := by
      unfold muCH lap2
      simp only
      rw [show f0 - 1 - 1 = f0 - 2 by ring, show f0 - 1 + 1 = f0 by ring, (hm.1 (f1 + b) (by omega) (by omega)).1, xl (f1 + b) (by omega),
        xl (f1 + b - 1) (by omega), xl (f1 + b + 1) (by omega)]
      ring
    have e2 : muCH ca cb w kappa dx dy v (f0 + N) (f1 + b) = muCH ca cb w kappa dx dy v (f0 + N - 1) (f1 + b) := by
      unfold muCH lap2
      simp only
      rw [show f0 + (N : ℤ) - 1 - 1 = f0 + N - 2 by ring, show f0 + (N : ℤ) - 1 + 1 = f0 + N by ring, (hm.1 (f1 + b) (by omega) (by omega)).2,
        xh (f1 + b) (by omega), xh (f1 + b - 1) (by omega), xh (f1 + b + 1) (by omega)]
      ring
    rw [e1, e2]
    ring

/-- Two ghost cells are requested by the models for which the second layer matters, among others. -/
theorem c95_ghosts (o u c s : Bool) : ghostsRequired o u c s = 2 ↔ o = true ∨ u = true ∨ c = true ∨ s = true := by
  cases o <;> cases u <;> cases c <;> cases s <;> simp [ghostsRequired]

/-! ## Instances -/

/-- The hypotheses are met: a zero-gradient side and a fixed-value side. -/
example : ZeroGradient ⟨0, 1, 0⟩ ∧ FixedValue ⟨1, 0, 0.3⟩ 0.3 := ⟨⟨rfl, one_ne_zero, rfl⟩, rfl, rfl, rfl⟩

/-- A quaternion field of pure unit rotations with the fixed value 1 gets norm two on the face. -/
example : ∑ d, face ((fun (e : Fin 4) (_ _ : ℤ) => if e = 0 then (1 : ℝ) else 0) d 0 0)
    (fill ⟨0, 3, 0, 3⟩ (fun _ => true) (fun _ => ⟨1, 0, 1⟩) 1 1 (fun (e : Fin 4) (_ _ : ℤ) => if e = 0 then (1 : ℝ) else 0) d (0 - 1) 0) ^ 2 = 4 := by
  have := (c95_violation_fixed_value ⟨0, 3, 0, 3⟩ (fun _ => true) (fun _ => ⟨1, 0, 1⟩) 1 1 1 one_ne_zero rfl ⟨rfl, rfl, rfl⟩
    (fun (e : Fin 4) (_ _ : ℤ) => if e = 0 then (1 : ℝ) else 0) 0 ⟨le_refl _, by norm_num⟩).2.2
  rw [this]
  norm_num

/-- A field that varies, repeats and mirrors: hypotheses of the conservation theorems are met. -/
example : ∃ v : Field2, Repeats (boxOf 0 0 2 2) v ∧ Mirrors 2 2 0 0 v ∧ v 0 0 ≠ v 1 0 := by
  refine ⟨fun i _ => if i = 1 ∨ i = 2 ∨ i = -2 then 1 else 0, fun i j h => ?_, ⟨fun j _ _ => ?_, fun i _ _ => ?_⟩, by norm_num⟩
  · unfold Near boxOf at h
    unfold boxOf
    simp only [Nat.cast_ofNat] at h ⊢
    have : i = -1 ∨ i = 0 ∨ i = 1 ∨ i = 2 := by omega
    rcases this with rfl | rfl | rfl | rfl <;> norm_num
  · norm_num
  · exact ⟨rfl, rfl⟩

end AMPE.Boundary.Props
