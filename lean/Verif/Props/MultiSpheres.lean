import Verif.Model.MultiSpheres
import Mathlib.Analysis.SpecialFunctions.Artanh
import Mathlib.Algebra.BigOperators.Group.List.Basic
import Mathlib.Tactic.Linarith
import Mathlib.Tactic.FieldSimp
import Mathlib.Tactic.Ring

/-!
# C149: each sphere of the list fills the cells within its radius, across periodic borders, with its phase and composition
-/

namespace AMPE.MultiSpheres.Props

open AMPE.MultiSpheres

/-! ## What is meant -/

/-- Square of the distance between the middle of a cell and the centre of a sphere. -/
noncomputable def dist2 (s : Sphere) (i j k : ℕ) : ℝ := ((i : ℝ) + 1 / 2 - s.cx) ^ 2 + ((j : ℝ) + 1 / 2 - s.cy) ^ 2 + ((k : ℝ) + 1 / 2 - s.cz) ^ 2

/-- Square of the distance in the plane. -/
noncomputable def flat2 (s : Sphere) (i j : ℕ) : ℝ := ((i : ℝ) + 1 / 2 - s.cx) ^ 2 + ((j : ℝ) + 1 / 2 - s.cy) ^ 2

/-- The profile of an interface of width `w` at the distance `d` outside of it. -/
noncomputable def profile (w d : ℝ) : ℝ := (1 - Real.tanh (d / (2 * w))) / 2

/-- A grid without images. -/
def Plain (o : Grid) : Prop := o.rx = [0] ∧ o.ry = [0] ∧ o.rz = [0]

/-- What the option of periodicity leaves: the grid of a text. -/
noncomputable def gridOf (text : String) (nx ny nz : ℕ) (width : ℝ) : Option Grid :=
  (ranges (periodic text)).map fun r => ⟨nx, ny, nz, r.1, r.2.1, r.2.2, width⟩

/-! ## Distance to the nearest image -/

theorem foldMin_le (f : ℤ → ℝ) (l : List ℤ) (d : ℝ) :
    l.foldl (fun d2 ir => if f ir < d2 then f ir else d2) d ≤ d
    ∧ (∀ a ∈ l, l.foldl (fun d2 ir => if f ir < d2 then f ir else d2) d ≤ f a)
    ∧ (l.foldl (fun d2 ir => if f ir < d2 then f ir else d2) d = d ∨ ∃ a ∈ l, l.foldl (fun d2 ir => if f ir < d2 then f ir else d2) d = f a) := by
  induction l generalizing d with
  | nil => simp
  | cons b l ih =>
    simp only [List.foldl_cons]
    obtain ⟨h1, h2, h3⟩ := ih (if f b < d then f b else d)
    have hb : (if f b < d then f b else d) ≤ d ∧ (if f b < d then f b else d) ≤ f b := by
      split_ifs with h
      · exact ⟨h.le, le_refl _⟩
      · exact ⟨le_refl _, not_lt.mp h⟩
    refine ⟨h1.trans hb.1, ?_, ?_⟩
    · intro a ha
      rcases List.mem_cons.mp ha with rfl | ha
      · exact h1.trans hb.2
      · exact h2 a ha
    · rcases h3 with h3 | ⟨a, ha, h3⟩
      · by_cases h : f b < d
        · rw [if_pos h] at h3 ⊢
          exact Or.inr ⟨b, List.mem_cons_self, h3⟩
        · rw [if_neg h] at h3 ⊢
          exact Or.inl h3
      · exact Or.inr ⟨a, List.mem_cons_of_mem _ ha, h3⟩

theorem loopZ_spec (nz : ℕ) (rz : List ℤ) (z dx2 dy2 d2 : ℝ) :
    loopZ nz rz z dx2 dy2 d2 ≤ d2 ∧ (∀ c ∈ rz, loopZ nz rz z dx2 dy2 d2 ≤ dx2 + dy2 + (z + c * nz) ^ 2)
    ∧ (loopZ nz rz z dx2 dy2 d2 = d2 ∨ ∃ c ∈ rz, loopZ nz rz z dx2 dy2 d2 = dx2 + dy2 + (z + c * nz) ^ 2) :=
  foldMin_le (fun c => dx2 + dy2 + (z + c * nz) ^ 2) rz d2

theorem loopY_spec (ny nz : ℕ) (ry rz : List ℤ) (y z dx2 d2 : ℝ) (hx : 0 ≤ dx2) :
    loopY ny nz ry rz y z dx2 d2 ≤ d2
    ∧ (∀ b ∈ ry, ∀ c ∈ rz, loopY ny nz ry rz y z dx2 d2 ≤ dx2 + (y + b * ny) ^ 2 + (z + c * nz) ^ 2)
    ∧ (loopY ny nz ry rz y z dx2 d2 = d2 ∨ ∃ b ∈ ry, ∃ c ∈ rz, loopY ny nz ry rz y z dx2 d2 = dx2 + (y + b * ny) ^ 2 + (z + c * nz) ^ 2) := by
  unfold loopY
  induction ry generalizing d2 with
  | nil => simp
  | cons b l ih =>
    simp only [List.foldl_cons]
    by_cases h : (y + b * ny) ^ 2 ≤ d2
    · rw [if_pos h]
      obtain ⟨z1, z2, z3⟩ := loopZ_spec nz rz z dx2 ((y + b * ny) ^ 2) d2
      obtain ⟨h1, h2, h3⟩ := ih (loopZ nz rz z dx2 ((y + b * ny) ^ 2) d2)
      refine ⟨h1.trans z1, ?_, ?_⟩
      · intro a ha c hc
        rcases List.mem_cons.mp ha with rfl | ha
        · exact h1.trans (z2 c hc)
        · exact h2 a ha c hc
      · rcases h3 with h3 | ⟨a, ha, c, hc, h3⟩
        · rw [h3]
          rcases z3 with z3 | ⟨c, hc, z3⟩
          · exact Or.inl z3
          · exact Or.inr ⟨b, List.mem_cons_self, c, hc, z3⟩
        · exact Or.inr ⟨a, List.mem_cons_of_mem _ ha, c, hc, h3⟩
    · rw [if_neg h]
      obtain ⟨h1, h2, h3⟩ := ih d2
      refine ⟨h1, ?_, ?_⟩
      · intro a ha c hc
        rcases List.mem_cons.mp ha with rfl | ha
        · have := sq_nonneg (z + c * nz)
          push Not at h
          linarith
        · exact h2 a ha c hc
      · rcases h3 with h3 | ⟨a, ha, c, hc, h3⟩
        · exact Or.inl h3
        · exact Or.inr ⟨a, List.mem_cons_of_mem _ ha, c, hc, h3⟩

theorem loopX_spec (nx ny nz : ℕ) (rx ry rz : List ℤ) (x y z d2 : ℝ) (D : ℝ)
    (hD : rx.foldl (fun d2 (ir : ℤ) => if (x + ir * nx) ^ 2 ≤ d2 then loopY ny nz ry rz y z ((x + ir * nx) ^ 2) d2 else d2) d2 = D) :
    D ≤ d2 ∧ (∀ a ∈ rx, ∀ b ∈ ry, ∀ c ∈ rz, D ≤ (x + a * nx) ^ 2 + (y + b * ny) ^ 2 + (z + c * nz) ^ 2)
    ∧ (D = d2 ∨ ∃ a ∈ rx, ∃ b ∈ ry, ∃ c ∈ rz, D = (x + a * nx) ^ 2 + (y + b * ny) ^ 2 + (z + c * nz) ^ 2) := by
  induction rx generalizing d2 with
  | nil => simp only [List.foldl_nil] at hD; subst hD; simp
  | cons e l ih =>
    simp only [List.foldl_cons] at hD
    by_cases h : (x + e * nx) ^ 2 ≤ d2
    · rw [if_pos h] at hD
      obtain ⟨z1, z2, z3⟩ := loopY_spec ny nz ry rz y z ((x + e * nx) ^ 2) d2 (sq_nonneg _)
      obtain ⟨h1, h2, h3⟩ := ih (loopY ny nz ry rz y z ((x + e * nx) ^ 2) d2) hD
      refine ⟨h1.trans z1, ?_, ?_⟩
      · intro a ha b hb c hc
        rcases List.mem_cons.mp ha with rfl | ha
        · exact h1.trans (z2 b hb c hc)
        · exact h2 a ha b hb c hc
      · rcases h3 with h3 | ⟨a, ha, b, hb, c, hc, h3⟩
        · rw [h3]
          rcases z3 with z3 | ⟨b, hb, c, hc, z3⟩
          · exact Or.inl z3
          · exact Or.inr ⟨e, List.mem_cons_self, b, hb, c, hc, z3⟩
        · exact Or.inr ⟨a, List.mem_cons_of_mem _ ha, b, hb, c, hc, h3⟩
    · rw [if_neg h] at hD
      obtain ⟨h1, h2, h3⟩ := ih d2 hD
      refine ⟨h1, ?_, ?_⟩
      · intro a ha b hb c hc
        rcases List.mem_cons.mp ha with rfl | ha
        · have := sq_nonneg (z + c * nz)
          have := sq_nonneg (y + b * ny)
          push Not at h
          linarith
        · exact h2 a ha b hb c hc
      · rcases h3 with h3 | ⟨a, ha, b, hb, c, hc, h3⟩
        · exact Or.inl h3
        · exact Or.inr ⟨a, List.mem_cons_of_mem _ ha, b, hb, c, hc, h3⟩

/-- `distance2` is the least square of the distance over all images in the ranges (each of which contains 0): leaving out images early
never misses the nearest one. -/
theorem c149_distance (nx ny nz : ℕ) (rx ry rz : List ℤ) (x y z : ℝ) (h0 : (0:ℤ) ∈ rx ∧ (0:ℤ) ∈ ry ∧ (0:ℤ) ∈ rz) :
    (∀ a ∈ rx, ∀ b ∈ ry, ∀ c ∈ rz, distance2 nx ny nz rx ry rz x y z ≤ (x + a * nx) ^ 2 + (y + b * ny) ^ 2 + (z + c * nz) ^ 2)
    ∧ ∃ a ∈ rx, ∃ b ∈ ry, ∃ c ∈ rz, distance2 nx ny nz rx ry rz x y z = (x + a * nx) ^ 2 + (y + b * ny) ^ 2 + (z + c * nz) ^ 2 := by
  obtain ⟨-, h2, h3⟩ := loopX_spec nx ny nz rx ry rz x y z (x ^ 2 + y ^ 2 + z ^ 2) _ rfl
  refine ⟨h2, ?_⟩
  rcases h3 with h3 | h3
  · exact ⟨0, h0.1, 0, h0.2.1, 0, h0.2.2, by rw [distance2, h3]; simp⟩
  · exact h3

/-! ## Periodicity -/

/-- Violation: no text of the option makes any axis periodic (the pieces of the text are compared with the number 1). -/
theorem c149_violation_periodic (text : String) (nx ny nz : ℕ) (width : ℝ) (o : Grid) (h : gridOf text nx ny nz width = some o) : Plain o := by
  unfold gridOf periodic at h
  match hs : text.splitOn "," with
  | [] => rw [hs] at h; simp [ranges] at h
  | [a] => rw [hs] at h; simp [ranges] at h
  | [a, b] => rw [hs] at h; simp [ranges] at h
  | a :: b :: c :: l =>
    rw [hs] at h
    simp only [List.map_cons, ranges, Option.map_some, Option.some.injEq] at h
    subst h
    exact ⟨rfl, rfl, rfl⟩

/-- With numbers in place of the pieces of the text all axes would be periodic. -/
example : ranges [.int 1, .int 1, .int 1] = some ([-1, 0, 1], [-1, 0, 1], [-1, 0, 1]) := rfl

theorem plain_distance {o : Grid} (h : Plain o) (s : Sphere) (i j k : ℕ) : o.d s i j k = Real.sqrt (dist2 s i j k) - |s.r| := by
  unfold Grid.d
  rw [h.1, h.2.1, h.2.2, Real.sqrt_sq_eq_abs]
  obtain ⟨-, a, ha, b, hb, c, hc, e⟩ := c149_distance o.nx o.ny o.nz [0] [0] [0] ((i + 0.5 : ℝ) - s.cx) ((j + 0.5 : ℝ) - s.cy) ((k + 0.5 : ℝ) - s.cz)
    (by simp)
  simp only [List.mem_singleton] at ha hb hc
  subst ha hb hc
  rw [e]
  congr 2
  unfold dist2
  norm_num

theorem fold_min (g : ℤ → ℝ) (rg : List ℤ) (a : ℝ) :
    rg.foldl (fun d2 ir => if g ir < d2 then g ir else d2) a ≤ a ∧ (∀ ir ∈ rg, rg.foldl (fun d2 ir => if g ir < d2 then g ir else d2) a ≤ g ir) ∧
      (rg.foldl (fun d2 ir => if g ir < d2 then g ir else d2) a = a ∨ ∃ ir ∈ rg, rg.foldl (fun d2 ir => if g ir < d2 then g ir else d2) a = g ir) := by
  induction rg generalizing a with
  | nil => simp
  | cons b l ih =>
    simp only [List.foldl_cons]
    obtain ⟨h1, h2, h3⟩ := ih (if g b < a then g b else a)
    have hm : (if g b < a then g b else a) ≤ a ∧ (if g b < a then g b else a) ≤ g b := by
      split_ifs with h
      · exact ⟨h.le, le_rfl⟩
      · exact ⟨le_rfl, not_lt.mp h⟩
    refine ⟨h1.trans hm.1, ?_, ?_⟩
    · intro ir hir
      rcases List.mem_cons.mp hir with rfl | hir
      · exact h1.trans hm.2
      · exact h2 ir hir
    · rcases h3 with h3 | ⟨ir, hir, h3⟩
      · by_cases h : g b < a
        · right
          refine ⟨b, by simp, ?_⟩
          rw [h3, if_pos h]
        · left
          rw [h3, if_neg h]
      · exact Or.inr ⟨ir, List.mem_cons_of_mem _ hir, h3⟩

/-- Distance along one axis, used to skip planes: the least squared distance to the images of the centre, for every list of shifts that contains 0. -/
theorem c149_axis_distance (n : ℕ) (rg : List ℤ) (x1 x2 : ℝ) (h0 : (0:ℤ) ∈ rg) :
    (∀ ir ∈ rg, distance1 n rg x1 x2 ≤ (x1 - x2 + ir * n) ^ 2) ∧ ∃ ir ∈ rg, distance1 n rg x1 x2 = (x1 - x2 + ir * n) ^ 2 := by
  obtain ⟨-, h2, h3⟩ := fold_min (fun ir => (x1 - x2 + ir * n) ^ 2) rg ((x1 - x2) ^ 2)
  refine ⟨h2, ?_⟩
  rcases h3 with h3 | h3
  · exact ⟨0, h0, by simpa [distance1] using h3⟩
  · exact h3

theorem plain_one (n : ℕ) (x y : ℝ) : distance1 n [0] x y = (x - y) ^ 2 := by
  unfold distance1
  simp

theorem near_iff {o : Grid} (h : Plain o) (s : Sphere) (j k : ℕ) :
    o.Near s j k ↔ (((k:ℝ) + 1 / 2 - s.cz) ^ 2 < (s.r + 5 * o.width) ^ 2 ∨ o.nz = 1) ∧ ((j:ℝ) + 1 / 2 - s.cy) ^ 2 < (s.r + 5 * o.width) ^ 2 := by
  unfold Grid.Near
  rw [h.2.1, h.2.2, plain_one, plain_one]
  norm_num

theorem d_neg_iff {o : Grid} (h : Plain o) (s : Sphere) (i j k : ℕ) : o.d s i j k < 0 ↔ dist2 s i j k < s.r ^ 2 := by
  rw [plain_distance h, sub_neg, ← Real.sqrt_sq_eq_abs]
  refine Real.sqrt_lt_sqrt_iff ?_
  unfold dist2; positivity

theorem near_of_lt {o : Grid} (h : Plain o) {s : Sphere} (hr : 0 ≤ s.r) (hw : 0 ≤ o.width) {i j k : ℕ}
    (hd : dist2 s i j k < s.r ^ 2) : o.Near s j k := by
  rw [near_iff h]
  unfold dist2 at hd
  have h1 := sq_nonneg ((i:ℝ) + 1 / 2 - s.cx)
  have h2 := sq_nonneg ((j:ℝ) + 1 / 2 - s.cy)
  have h3 := sq_nonneg ((k:ℝ) + 1 / 2 - s.cz)
  have h4 : s.r ^ 2 ≤ (s.r + 5 * o.width) ^ 2 := by nlinarith
  exact ⟨Or.inl (by linarith), by linarith⟩

/-! ## Phase -/

/-- The cells that get the composition of a sphere are those within its radius. -/
theorem c149_filled {o : Grid} (h : Plain o) {s : Sphere} (hr : 0 ≤ s.r) (hw : 0 ≤ o.width) (i j k : ℕ) :
    o.Filled s i j k ↔ dist2 s i j k < s.r ^ 2 := by
  unfold Grid.Filled
  rw [d_neg_iff h]
  exact ⟨fun h' => h'.2, fun h' => ⟨near_of_lt h hr hw h', h'⟩⟩

/-- Sharp interface: the phase of a sphere is 1 in the cells whose middle lies within its radius and 0 elsewhere (no images: see the
violation for periodic axes). -/
theorem c149_sphere_partial {o : Grid} (h : Plain o) (hw : o.width = 0) {s : Sphere} (hr : 0 ≤ s.r) (i j k : ℕ) :
    o.phase s i j k = if dist2 s i j k < s.r ^ 2 then 1 else 0 := by
  unfold Grid.phase
  have hn : ¬ (0 < o.width ∧ |o.d s i j k| < 8 * o.width) := by rw [hw]; simp
  rw [if_neg hn]
  by_cases hd : dist2 s i j k < s.r ^ 2
  · rw [if_pos (near_of_lt h hr hw.ge hd), if_pos ((d_neg_iff h _ _ _ _).mpr hd), if_pos hd]
  · rw [if_neg hd]
    split_ifs with h1 h2
    · exact absurd ((d_neg_iff h _ _ _ _).mp h2) hd
    · rfl
    · rfl

/-- Violation: in a domain with one plane of cells a disc is drawn with the square of its radius lowered by 1/4. -/
theorem c149_violation_flat {o : Grid} (h : Plain o) (hw : o.width = 0) (cx cy cz : ℝ) {r : ℝ} (hr : 0 ≤ r) (ph : Option String) (i j : ℕ) :
    o.phase (readSphere 1 cx cy cz r ph) i j 0 = if flat2 (readSphere 1 cx cy cz r ph) i j + 1 / 4 < r ^ 2 then 1 else 0 := by
  rw [c149_sphere_partial h hw (by exact hr)]
  have e : dist2 (readSphere 1 cx cy cz r ph) i j 0 = flat2 (readSphere 1 cx cy cz r ph) i j + 1 / 4 := by
    unfold dist2 flat2 readSphere; norm_num
  rw [e]
  rfl

/-- A disc of radius 1/2 around the middle of a cell is empty. -/
example (o : Grid) (h : Plain o) (hw : o.width = 0) : o.phase (readSphere 1 2.5 2.5 0.5 0.5 none) 2 2 0 = 0 := by
  rw [c149_violation_flat h hw 2.5 2.5 0.5 (by norm_num)]
  unfold flat2 readSphere
  norm_num

/-- A sphere at the left border of a domain said to be periodic: the last cell of the row, at distance 1 across the border, is outside. -/
example (o : Grid) (h : gridOf "1,1,1" 10 10 10 0 = some o) : o.phase ⟨0.5, 5.5, 5.5, 2, "A"⟩ 9 5 5 = 0 := by
  have hp := c149_violation_periodic _ _ _ _ _ _ h
  have hw : o.width = 0 := by
    unfold gridOf at h
    match hr : ranges (periodic "1,1,1") with
    | none => rw [hr] at h; simp at h
    | some r => rw [hr] at h; simp only [Option.map_some, Option.some.injEq] at h; rw [← h]
  rw [c149_sphere_partial hp hw (by norm_num)]
  unfold dist2
  norm_num

/-- Every value lies between 0 and 1. -/
theorem c149_phase_range (o : Grid) (s : Sphere) (i j k : ℕ) : 0 ≤ o.phase s i j k ∧ o.phase s i j k ≤ 1 := by
  unfold Grid.phase
  have h1 := Real.neg_one_lt_tanh (-1 * o.d s i j k / (2 * o.width))
  have h2 := Real.tanh_lt_one (-1 * o.d s i j k / (2 * o.width))
  split_ifs <;> constructor <;> norm_num at * <;> linarith

theorem tanh_mono {a b : ℝ} (h : a ≤ b) : Real.tanh a ≤ Real.tanh b := by
  rw [Real.tanh_eq_sinh_div_cosh, Real.tanh_eq_sinh_div_cosh, div_le_div_iff₀ (Real.cosh_pos _) (Real.cosh_pos _)]
  have := Real.sinh_sub b a
  have h0 : 0 ≤ Real.sinh (b - a) := Real.sinh_nonneg_iff.mpr (by linarith)
  linarith

theorem profile_far {w d : ℝ} (hw : 0 < w) (hd : 5 * w ≤ d) : 0 ≤ profile w d ∧ profile w d ≤ profile 1 5 := by
  unfold profile
  have h1 := Real.tanh_lt_one (d / (2 * w))
  have h2 : Real.tanh (5 / (2 * 1)) ≤ Real.tanh (d / (2 * w)) := by
    apply tanh_mono
    rw [div_le_div_iff₀ (by norm_num) (by positivity)]
    linarith
  constructor <;> linarith

theorem profile_deep {w d : ℝ} (hw : 0 < w) (hd : d ≤ -(5 * w)) : 0 ≤ 1 - profile w d ∧ 1 - profile w d ≤ profile 1 5 := by
  have h := profile_far hw (by linarith : 5 * w ≤ -d)
  have e : profile w (-d) = 1 - profile w d := by
    unfold profile
    rw [neg_div, Real.tanh_neg]
    ring
  rw [← e]; exact h

/-- Smooth interface: the phase is the profile of the distance to the sphere, up to the value of the profile at five widths (about 0.0067). -/
theorem c149_profile {o : Grid} (h : Plain o) (hw : 0 < o.width) {s : Sphere} (hr : 0 ≤ s.r) (i j k : ℕ) :
    |o.phase s i j k - profile o.width (Real.sqrt (dist2 s i j k) - s.r)| ≤ profile 1 5 := by
  have hp : (0:ℝ) ≤ profile 1 5 := by have := profile_far (w := 1) (d := 5) one_pos (by norm_num); exact this.1
  have ed : o.d s i j k = Real.sqrt (dist2 s i j k) - s.r := by rw [plain_distance h, abs_of_nonneg hr]
  unfold Grid.phase
  rw [ed]
  set d := Real.sqrt (dist2 s i j k) - s.r with hd
  by_cases hnear : o.Near s j k
  · rw [if_pos hnear]
    by_cases h8 : |d| < 8 * o.width
    · rw [if_pos ⟨hw, h8⟩]
      have : 0.5 * (1 + Real.tanh (-1 * d / (2 * o.width))) = profile o.width d := by
        unfold profile
        rw [show -1 * d / (2 * o.width) = -(d / (2 * o.width)) by ring, Real.tanh_neg]
        norm_num; ring
      rw [this, sub_self, abs_zero]
      exact hp
    · rw [if_neg (fun h' => h8 h'.2)]
      push Not at h8
      by_cases hneg : d < 0
      · rw [if_pos hneg]
        rw [abs_of_neg hneg] at h8
        have := profile_deep hw (by linarith : d ≤ -(5 * o.width))
        rw [abs_le]; constructor <;> linarith
      · rw [if_neg hneg]
        push Not at hneg
        rw [abs_of_nonneg hneg] at h8
        have := profile_far hw (by linarith : 5 * o.width ≤ d)
        rw [abs_le]; constructor <;> linarith
  · rw [if_neg hnear]
    rw [near_iff h] at hnear
    have hd5 : 5 * o.width ≤ d := by
      have hsq : (s.r + 5 * o.width) ^ 2 ≤ dist2 s i j k := by
        by_contra hlt
        push Not at hlt
        unfold dist2 at hlt
        have h1 := sq_nonneg ((i:ℝ) + 1 / 2 - s.cx)
        have h2 := sq_nonneg ((j:ℝ) + 1 / 2 - s.cy)
        have h3 := sq_nonneg ((k:ℝ) + 1 / 2 - s.cz)
        exact hnear ⟨Or.inl (by linarith), by linarith⟩
      have := Real.sqrt_le_sqrt hsq
      rw [Real.sqrt_sq (by positivity)] at this
      rw [hd]; linarith
    have := profile_far hw hd5
    rw [abs_le]; constructor <;> linarith

/-- Sharp interface: the sum of the phases of a cell is the number of spheres that contain it, so that it exceeds 1 wherever two overlap. -/
theorem c149_sum {o : Grid} (h : Plain o) (hw : o.width = 0) (l : List Sphere) (hr : ∀ s ∈ l, 0 ≤ s.r) (i j k : ℕ) [DecidablePred fun s => dist2 s i j k < s.r ^ 2] :
    (l.map fun s => o.phase s i j k).sum = (l.countP fun s => dist2 s i j k < s.r ^ 2 : ℕ) := by
  induction l with
  | nil => simp
  | cons s l ih =>
    simp only [List.map_cons, List.sum_cons, List.countP_cons]
    rw [ih fun s' h' => hr s' (List.mem_cons_of_mem _ h'), c149_sphere_partial h hw (hr s List.mem_cons_self)]
    by_cases hd : dist2 s i j k < s.r ^ 2
    · simp only [hd, if_true, decide_true]; push_cast; ring
    · simp [hd]

/-! ## Composition -/

theorem conc_step {o : Grid} (concL concA : List ℝ) (concB : Option (List ℝ)) (l : List Sphere) (s : Sphere) (sp i j k : ℕ) :
    o.conc concL concA concB (l ++ [s]) sp i j k =
      (o.conc concL concA concB l sp i j k).bind fun c => (concOf concA concB s).bind fun cs =>
        open Classical in if o.Filled s i j k then cs[sp]? else some c := by
  unfold Grid.conc
  rw [List.foldl_append, List.foldl_cons, List.foldl_nil]

/-- A cell outside of all spheres has the composition of the liquid. -/
theorem c149_liquid {o : Grid} (concL concA : List ℝ) (concB : Option (List ℝ)) (l : List Sphere) (sp i j k : ℕ)
    (hB : ∀ s ∈ l, (concOf concA concB s).isSome) (hout : ∀ s ∈ l, ¬ o.Filled s i j k) :
    o.conc concL concA concB l sp i j k = concL[sp]? := by
  induction l using List.reverseRecOn with
  | nil => rfl
  | append_singleton l s ih =>
    rw [conc_step, ih (fun s' h' => hB s' (by simp [h'])) (fun s' h' => hout s' (by simp [h']))]
    obtain ⟨cs, hcs⟩ := Option.isSome_iff_exists.mp (hB s (by simp))
    rw [hcs]
    simp only [Option.bind_some]
    simp only [if_neg (hout s (by simp))]
    cases concL[sp]? <;> rfl

/-- A cell has the composition of the phase of the last sphere that contains it. -/
theorem c149_composition {o : Grid} (concL concA : List ℝ) (concB : Option (List ℝ)) (l l' : List Sphere) (s : Sphere) (sp i j k : ℕ)
    (hB : ∀ s' ∈ l ++ s :: l', ∃ cs, concOf concA concB s' = some cs ∧ sp < cs.length) (hL : sp < concL.length)
    (hin : o.Filled s i j k) (hout : ∀ s' ∈ l', ¬ o.Filled s' i j k) :
    o.conc concL concA concB (l ++ s :: l') sp i j k = (if s.phase = "A" then some concA else concB).bind fun cs => cs[sp]? := by
  have hall : ∀ l : List Sphere, (∀ s' ∈ l, ∃ cs, concOf concA concB s' = some cs ∧ sp < cs.length) →
      ∃ c, o.conc concL concA concB l sp i j k = some c := by
    intro l
    induction l using List.reverseRecOn with
    | nil => exact fun _ => ⟨concL[sp], List.getElem?_eq_getElem hL⟩
    | append_singleton l s ih =>
      intro hl
      obtain ⟨c, hc⟩ := ih fun s' h' => hl s' (by simp [h'])
      obtain ⟨cs, hcs, hlen⟩ := hl s (by simp)
      rw [conc_step, hc, hcs]
      simp only [Option.bind_some]
      split_ifs
      · exact ⟨cs[sp], List.getElem?_eq_getElem hlen⟩
      · exact ⟨c, rfl⟩
  induction l' using List.reverseRecOn with
  | nil =>
    obtain ⟨c, hc⟩ := hall l fun s' h' => hB s' (by simp [h'])
    rw [conc_step, hc]
    simp only [Option.bind_some]
    simp only [if_pos hin]
    rfl
  | append_singleton l' t ih =>
    have e : l ++ s :: (l' ++ [t]) = (l ++ s :: l') ++ [t] := by simp
    obtain ⟨cs, hcs, -⟩ := hB t (by simp)
    obtain ⟨c, hc⟩ := hall (l ++ s :: l') fun s' h' => hB s' (by rw [e]; exact List.mem_append_left _ h')
    have hih := ih (fun s' h' => hB s' (by rw [e]; exact List.mem_append_left _ h')) (fun s' h' => hout s' (by simp [h']))
    rw [e, conc_step, ← hih, hc, hcs]
    simp only [Option.bind_some]
    rw [if_neg (hout t (by simp))]

/-- Violation: a sphere whose phase is not 'A' stops the script when no composition is given for phase B. -/
theorem c149_violation_b {o : Grid} (concL concA : List ℝ) (l : List Sphere) (s : Sphere) (hs : s ∈ l) (hp : s.phase ≠ "A") (sp i j k : ℕ) :
    o.conc concL concA none l sp i j k = none := by
  induction l using List.reverseRecOn with
  | nil => simp at hs
  | append_singleton l t ih =>
    rw [conc_step]
    rcases List.mem_append.mp hs with h | h
    · rw [ih h]; rfl
    · rw [List.mem_singleton.mp h] at hp
      have : concOf concA none t = none := by unfold concOf; rw [if_neg hp]
      rw [this]
      cases o.conc concL concA none l sp i j k <;> rfl

/-- Violation: the number of species written is the number of different values for phase A; it is right exactly when no two are equal. -/
theorem c149_violation_species (concA : List ℝ) : species concA = concA.length ↔ concA.Nodup := by
  unfold species
  constructor
  · intro h
    have := (List.dedup_sublist concA).eq_of_length h
    rw [← this]; exact List.nodup_dedup _
  · intro h; rw [List.dedup_eq_self.mpr h]

theorem c149_species_le (concA : List ℝ) : species concA ≤ concA.length := (List.dedup_sublist concA).length_le

example : species [0.3, 0.3] < [(0.3 : ℝ), 0.3].length := by
  refine lt_of_le_of_ne (c149_species_le _) fun h => ?_
  have := (c149_violation_species _).mp h
  simp at this

end AMPE.MultiSpheres.Props
