import Verif.Model.Tagging
import Verif.Props.Flux
import Mathlib.Tactic.Linarith
import Mathlib.Tactic.Ring
import Mathlib.Tactic.NormNum
import Mathlib.Tactic.FieldSimp

/-! # C40: refinement tags; C58: discrete gradients -/

namespace AMPE.Tagging.Props

open AMPE.Tagging AMPE.Flux AMPE.Flux.Props

/-! ## C40: the tag loop -/

theorem tagLoop_eq {ι : Type} [DecidableEq ι] (cells : List ι) (g : ι → ℝ) (tol : ℝ) (tags : ι → ℤ) (x : ι) :
    tagLoop cells g tol tags x = if x ∈ cells ∧ tol * tol ≤ g x then 1 else tags x := by
  unfold tagLoop
  induction cells generalizing tags with
  | nil => simp
  | cons c cells ih =>
    rw [List.foldl_cons, ih]
    by_cases hc : tol * tol ≤ g c
    · rw [if_pos hc]
      by_cases hx : x = c
      · subst hx; simp [hc]
      · simp [hx, Function.update_of_ne hx]
    · rw [if_neg hc]
      by_cases hx : x = c
      · subst hx; simp [hc]
      · simp [hx]

/-- Squared jump of a scalar field across a cell, per direction half the difference of the two neighbours. -/
noncomputable def jump2 (v : Field2) (i j : ℤ) : ℝ :=
  ((v (i + 1) j - v (i - 1) j) / 2) ^ 2 + ((v i (j + 1) - v i (j - 1)) / 2) ^ 2

theorem grad_jump (v : Field2) (hx hy : ℝ) (h0 : hx ≠ 0) (h1 : hy ≠ 0) (i j : ℤ) :
    gradCellX hx (diffX v) i j * hx * (gradCellX hx (diffX v) i j * hx) +
      gradCellY hy (diffY v) i j * hy * (gradCellY hy (diffY v) i j * hy) = jump2 v i j := by
  unfold gradCellX gradCellY diffX diffY jump2
  rw [show i + 1 - 1 = i by ring, show j + 1 - 1 = j by ring]
  field_simp
  ring

/-- Squared orientation jump: differences to the two neighbours, each brought to this cell's frame by the symmetry
rotation of the side between them. -/
noncomputable def qjump2 {n : ℕ} (SX SY RX RY : ℤ → ℤ → QVec n → QVec n) (q : QField n) (i j : ℤ) : ℝ :=
  ∑ m, ((RX (i + 1) j (q (i + 1) j - SX (i + 1) j (q i j)) m + (q i j m - SX i j (q (i - 1) j) m)) / 2) ^ 2 +
  ∑ m, ((RY i (j + 1) (q i (j + 1) - SY i (j + 1) (q i j)) m + (q i j m - SY i j (q i (j - 1)) m)) / 2) ^ 2

theorem foldl_sum {n : ℕ} (l : List (Fin n)) (a b : Fin n → ℝ) (s : ℝ) :
    l.foldl (fun g m => g + a m + b m) s = s + (l.map a).sum + (l.map b).sum := by
  induction l generalizing s with
  | nil => simp
  | cons c l ih => rw [List.foldl_cons, ih]; simp only [List.map_cons, List.sum_cons]; ring

theorem qgrad_jump {n : ℕ} (SX SY RX RY : ℤ → ℤ → QVec n → QVec n) (q : QField n) (hx hy : ℝ) (h0 : hx ≠ 0)
    (h1 : hy ≠ 0) (i j : ℤ) :
    (List.finRange n).foldl (fun g m =>
      g + qgradCellX hx RX (qdiffX SX q) i j m * hx * (qgradCellX hx RX (qdiffX SX q) i j m * hx)
        + qgradCellY hy RY (qdiffY SY q) i j m * hy * (qgradCellY hy RY (qdiffY SY q) i j m * hy)) 0 =
      qjump2 SX SY RX RY q i j := by
  rw [foldl_sum]
  unfold qjump2
  rw [zero_add, ← List.ofFn_eq_map, ← List.ofFn_eq_map, List.sum_ofFn, List.sum_ofFn]
  congr 1
  · refine Finset.sum_congr rfl fun m _ => ?_
    unfold qgradCellX qdiffX
    rw [show i + 1 - 1 = i by ring]
    simp only [Pi.sub_apply]
    field_simp
    ring
  · refine Finset.sum_congr rfl fun m _ => ?_
    unfold qgradCellY qdiffY
    rw [show j + 1 - 1 = j by ring]
    simp only [Pi.sub_apply]
    field_simp
    ring

/-- The cell lies on the patch. -/
def InBox (lo0 hi0 lo1 hi1 i j : ℤ) : Prop := (lo0 ≤ i ∧ i ≤ hi0) ∧ (lo1 ≤ j ∧ j ≤ hi1)

/-- **C40**: a cell is tagged iff it lies on the patch and one of the criteria given in the input (and meaningful for
the model) sees a jump of at least its tolerance; every other cell has tag 0. The grid spacing does not matter. -/
theorem c40_tagged_iff_partial {n : ℕ} (third orient : Bool) (db : CriteriaDb) (SX SY RX RY : ℤ → ℤ → QVec n → QVec n)
    (lo0 hi0 lo1 hi1 : ℤ) (hx hy : ℝ) (h0 : hx ≠ 0) (h1 : hy ≠ 0) (f : Fields n) (i j : ℤ) :
    let tag := tagPatch (initializeAmr third orient (some db)) SX SY RX RY lo0 hi0 lo1 hi1 hx hy f (i, j)
    (tag = 1 ↔ InBox lo0 hi0 lo1 hi1 i j ∧
      ((∃ t, db.phi = some t ∧ t.untagged ^ 2 ≤ jump2 (f.phase 0) i j) ∨
       (third ∧ ∃ t, db.eta = some t ∧ t.untagged ^ 2 ≤ jump2 f.eta i j) ∨
       (orient ∧ ∃ t, db.orient = some t ∧ t.untagged ^ 2 ≤ qjump2 SX SY RX RY f.quat i j))) ∧
    (tag ≠ 1 → tag = 0) := by
  classical
  obtain ⟨phi, eta, ori⟩ := db
  intro tag
  have e : tag = if InBox lo0 hi0 lo1 hi1 i j ∧ (orient ∧ ∃ t, ori = some t ∧ t.untagged ^ 2 ≤ qjump2 SX SY RX RY f.quat i j)
      then 1 else if InBox lo0 hi0 lo1 hi1 i j ∧ (third ∧ ∃ t, eta = some t ∧ t.untagged ^ 2 ≤ jump2 f.eta i j) then 1
      else if InBox lo0 hi0 lo1 hi1 i j ∧ (∃ t, phi = some t ∧ t.untagged ^ 2 ≤ jump2 (f.phase 0) i j) then 1 else 0 := by
    show tagPatch _ _ _ _ _ _ _ _ _ _ _ _ _ = _
    unfold tagPatch initializeAmr tagFromGrads tagFromQuatGrads InBox
    simp only
    cases phi <;> cases eta <;> cases ori <;> cases third <;> cases orient <;>
      simp [tagLoop_eq, mem_loop2, grad_jump _ hx hy h0 h1, qgrad_jump SX SY RX RY _ hx hy h0 h1, pow_two]
  rw [e]
  simp only
  by_cases hA : InBox lo0 hi0 lo1 hi1 i j <;>
  by_cases hB : ∃ t, phi = some t ∧ t.untagged ^ 2 ≤ jump2 (f.phase 0) i j <;>
  by_cases hC : third = true ∧ ∃ t, eta = some t ∧ t.untagged ^ 2 ≤ jump2 f.eta i j <;>
  by_cases hE : orient = true ∧ ∃ t, ori = some t ∧ t.untagged ^ 2 ≤ qjump2 SX SY RX RY f.quat i j <;>
  simp only [hA, hB, hC, hE] <;> simp

/-- **C40**: no criteria, no tags. -/
theorem c40_no_criteria {n : ℕ} (third orient : Bool) (SX SY RX RY : ℤ → ℤ → QVec n → QVec n)
    (lo0 hi0 lo1 hi1 : ℤ) (hx hy : ℝ) (f : Fields n) (c : ℤ × ℤ) :
    tagPatch (initializeAmr third orient none) SX SY RX RY lo0 hi0 lo1 hi1 hx hy f c = 0 := rfl

/-- The symmetry rotations of the two sides undo each other on the differences and the neighbours have the same
orientation up to that rotation. -/
def Matched {n : ℕ} (SX SY : ℤ → ℤ → QVec n → QVec n) (q : QField n) (i j : ℤ) : Prop :=
  q (i + 1) j = SX (i + 1) j (q i j) ∧ q i j = SX i j (q (i - 1) j) ∧
    q i (j + 1) = SY i (j + 1) (q i j) ∧ q i j = SY i j (q i (j - 1))

/-- **C40**: a cell whose neighbours have the same values (orientations: the same up to crystal symmetry) is not
tagged when the tolerances are non-zero. -/
theorem c40_uniform_untagged {n : ℕ} (third orient : Bool) (db : CriteriaDb) (SX SY RX RY : ℤ → ℤ → QVec n → QVec n)
    (hRX : ∀ i j, RX i j 0 = 0) (hRY : ∀ i j, RY i j 0 = 0)
    (lo0 hi0 lo1 hi1 : ℤ) (hx hy : ℝ) (h0 : hx ≠ 0) (h1 : hy ≠ 0) (f : Fields n) (i j : ℤ)
    (hphi : f.phase 0 (i + 1) j = f.phase 0 (i - 1) j ∧ f.phase 0 i (j + 1) = f.phase 0 i (j - 1))
    (heta : f.eta (i + 1) j = f.eta (i - 1) j ∧ f.eta i (j + 1) = f.eta i (j - 1))
    (hq : Matched SX SY f.quat i j)
    (tpos : ∀ t, db.phi = some t ∨ db.eta = some t ∨ db.orient = some t → t.untagged ≠ 0) :
    tagPatch (initializeAmr third orient (some db)) SX SY RX RY lo0 hi0 lo1 hi1 hx hy f (i, j) = 0 := by
  obtain ⟨h, h'⟩ := c40_tagged_iff_partial third orient db SX SY RX RY lo0 hi0 lo1 hi1 hx hy h0 h1 f i j
  apply h'
  rw [Ne, h]
  have j1 : jump2 (f.phase 0) i j = 0 := by unfold jump2; rw [hphi.1, hphi.2]; ring
  have j2 : jump2 f.eta i j = 0 := by unfold jump2; rw [heta.1, heta.2]; ring
  have j3 : qjump2 SX SY RX RY f.quat i j = 0 := by
    obtain ⟨a, b, c, d⟩ := hq
    have b' := congrFun b
    have d' := congrFun d
    unfold qjump2
    rw [← a, ← c, ← b, ← d]
    simp [hRX, hRY]
  rw [j1, j2, j3]
  rintro ⟨_, ⟨t, ht, hle⟩ | ⟨_, t, ht, hle⟩ | ⟨_, t, ht, hle⟩⟩
  · exact absurd (pow_eq_zero_iff (two_ne_zero)|>.mp (le_antisymm hle (sq_nonneg _))) (tpos t (Or.inl ht))
  · exact absurd (pow_eq_zero_iff (two_ne_zero)|>.mp (le_antisymm hle (sq_nonneg _))) (tpos t (Or.inr (Or.inl ht)))
  · exact absurd (pow_eq_zero_iff (two_ne_zero)|>.mp (le_antisymm hle (sq_nonneg _))) (tpos t (Or.inr (Or.inr ht)))

/-- **C40** (violation): `threshold_tagged`, which the input must provide, has no influence at all. -/
theorem c40_violation_threshold_tagged_ignored {n : ℕ} (third orient : Bool) (t t' : ℝ × ℝ × ℝ) (u : Option ℝ × Option ℝ × Option ℝ)
    (SX SY RX RY : ℤ → ℤ → QVec n → QVec n) (lo0 hi0 lo1 hi1 : ℤ) (hx hy : ℝ) (f : Fields n) :
    tagPatch (initializeAmr third orient (some ⟨u.1.map (⟨t.1, ·⟩), u.2.1.map (⟨t.2.1, ·⟩), u.2.2.map (⟨t.2.2, ·⟩)⟩))
        SX SY RX RY lo0 hi0 lo1 hi1 hx hy f =
      tagPatch (initializeAmr third orient (some ⟨u.1.map (⟨t'.1, ·⟩), u.2.1.map (⟨t'.2.1, ·⟩), u.2.2.map (⟨t'.2.2, ·⟩)⟩))
        SX SY RX RY lo0 hi0 lo1 hi1 hx hy f := by
  obtain ⟨a, b, c⟩ := u
  cases a <;> cases b <;> cases c <;> cases third <;> cases orient <;> rfl

/-- **C40** (violation): with several order parameters only the first is looked at: two runs that differ in the
others get the same tags. -/
theorem c40_violation_other_order_parameters {n : ℕ} (cfg : CriteriaDb) (SX SY RX RY : ℤ → ℤ → QVec n → QVec n)
    (lo0 hi0 lo1 hi1 : ℤ) (hx hy : ℝ) (f g : Fields n) (h : f.phase 0 = g.phase 0) (he : f.eta = g.eta)
    (hq : f.quat = g.quat) :
    tagPatch cfg SX SY RX RY lo0 hi0 lo1 hi1 hx hy f = tagPatch cfg SX SY RX RY lo0 hi0 lo1 hi1 hx hy g := by
  unfold tagPatch
  rw [h, he, hq]

/-- **C40** (violation): so an interface between order parameters one and two, however sharp, is not refined where
order parameter zero is absent. -/
theorem c40_violation_interface_missed (t : Threshold) (ht : t.untagged ≠ 0) (lo0 hi0 lo1 hi1 : ℤ)
    (hx hy : ℝ) (h0 : hx ≠ 0) (h1 : hy ≠ 0) (f : Fields 0) (hz : ∀ i j, f.phase 0 i j = 0) (c : ℤ × ℤ) :
    tagPatch (initializeAmr false false (some ⟨some t, none, none⟩)) (fun _ _ => id) (fun _ _ => id) (fun _ _ => id)
      (fun _ _ => id) lo0 hi0 lo1 hi1 hx hy f c = 0 := by
  obtain ⟨h, h'⟩ := c40_tagged_iff_partial false false ⟨some t, none, none⟩ (fun _ _ => id) (fun _ _ => id)
    (fun _ _ => id) (fun _ _ => id) lo0 hi0 lo1 hi1 hx hy h0 h1 f c.1 c.2
  apply h'
  rw [Ne, h]
  rintro ⟨_, ⟨s, hs, hle⟩ | ⟨hf, _⟩ | ⟨hf, _⟩⟩
  · have : jump2 (f.phase 0) c.1 c.2 = 0 := by unfold jump2; simp only [hz]; ring
    rw [this] at hle
    cases hs
    exact ht (pow_eq_zero_iff (two_ne_zero)|>.mp (le_antisymm hle (sq_nonneg _)))
  · exact absurd hf (by simp)
  · exact absurd hf (by simp)

/-- A field with an interface between order parameters one and two. -/
example : ∃ f : Fields 0, (∀ i j, f.phase 0 i j = 0) ∧ f.phase 1 0 0 ≠ f.phase 1 1 0 :=
  ⟨⟨fun k i _ => if k = 1 ∧ i ≤ 0 then 1 else 0, fun _ _ => 0, fun _ _ _ => 0⟩, fun i j => by simp, by simp⟩

/-- **C40**: a tagged cell exists: a unit jump and tolerance 0.3. -/
example : tagPatch (initializeAmr false false (some ⟨some ⟨1, 0.3⟩, none, none⟩)) (n := 0) (fun _ _ => id)
    (fun _ _ => id) (fun _ _ => id) (fun _ _ => id) 0 3 0 3 0.1 0.1
    ⟨fun _ i _ => if i ≤ 1 then 1 else 0, fun _ _ => 0, fun _ _ _ => 0⟩ (1, 1) = 1 := by
  rw [(c40_tagged_iff_partial false false ⟨some ⟨1, 0.3⟩, none, none⟩ (fun _ _ => id) (fun _ _ => id)
    (fun _ _ => id) (fun _ _ => id) 0 3 0 3 0.1 0.1 (by norm_num) (by norm_num) _ 1 1).1]
  refine ⟨by unfold InBox; norm_num, Or.inl ⟨_, rfl, ?_⟩⟩
  unfold jump2
  norm_num

theorem mem_loop3 (lo0 hi0 lo1 hi1 lo2 hi2 : ℤ) (c : ℤ × ℤ × ℤ) :
    c ∈ AMPE.PhaseRHS.loop3 lo0 hi0 lo1 hi1 lo2 hi2 ↔
      (lo0 ≤ c.1 ∧ c.1 ≤ hi0) ∧ (lo1 ≤ c.2.1 ∧ c.2.1 ≤ hi1) ∧ (lo2 ≤ c.2.2 ∧ c.2.2 ≤ hi2) := by
  unfold AMPE.PhaseRHS.loop3
  simp only [List.mem_flatMap, List.mem_range, List.mem_map, mem_loop2]
  constructor
  · rintro ⟨a, ha, p, ⟨h1, h2⟩, rfl⟩
    refine ⟨h1, h2, ?_⟩
    simp only
    lia
  · rintro ⟨h1, h2, h3⟩
    exact ⟨(c.2.2 - lo2).toNat, by lia, (c.1, c.2.1), ⟨h1, h2⟩, by ext <;> simp; lia⟩

/-- **C40** in 3D, one scalar criterion: tagged iff on the patch and the jump (half differences in three directions)
reaches the tolerance, or tagged before. -/
theorem c40_tagged_iff_3d (lo0 hi0 lo1 hi1 lo2 hi2 : ℤ) (h : Fin 3 → ℝ) (hn : ∀ d, h d ≠ 0) (v : ℤ × ℤ × ℤ → ℝ)
    (tol : ℝ) (tags : ℤ × ℤ × ℤ → ℤ) (i j k : ℤ) :
    tagFromGrads3 lo0 hi0 lo1 hi1 lo2 hi2 h v tol tags (i, j, k) = 1 ↔
      (((lo0 ≤ i ∧ i ≤ hi0) ∧ (lo1 ≤ j ∧ j ≤ hi1) ∧ (lo2 ≤ k ∧ k ≤ hi2)) ∧
        tol ^ 2 ≤ ((v (i + 1, j, k) - v (i - 1, j, k)) / 2) ^ 2 + ((v (i, j + 1, k) - v (i, j - 1, k)) / 2) ^ 2
          + ((v (i, j, k + 1) - v (i, j, k - 1)) / 2) ^ 2) ∨ tags (i, j, k) = 1 := by
  classical
  unfold tagFromGrads3
  have g : ∀ d, gradCell3 h v d (i, j, k) * h d = (v (shift (i, j, k) d 1) - v (shift (i, j, k) d (-1))) / 2 := by
    intro d
    have := hn d
    unfold gradCell3 diff3
    have e : shift (shift (i, j, k) d 1) d (-1) = (i, j, k) := by
      fin_cases d <;> simp [shift]
    rw [e]
    field_simp
    ring
  simp only [tagLoop_eq, mem_loop3, g]
  simp only [shift]
  simp only [pow_two, sub_eq_add_neg]
  constructor
  · intro hh
    split_ifs at hh with hc
    · exact Or.inl hc
    · exact Or.inr hh
  · rintro (hc | hc)
    · rw [if_pos hc]
    · split_ifs <;> simp [hc]

/-! ## C58: discrete gradients -/

/-- An affine field on a grid of spacing `hx`, `hy`. -/
noncomputable def affine (a b c hx hy : ℝ) : Field2 := fun i j => a + b * (i * hx) + c * (j * hy)

/-- **C58**: all gradient routines are exact on affine fields, in every cell and on every side. -/
theorem c58_affine_exact (a b c hx hy : ℝ) (h0 : hx ≠ 0) (h1 : hy ≠ 0) (i j : ℤ) :
    let v := affine a b c hx hy
    gradCellX hx (diffX v) i j = b ∧ gradCellY hy (diffY v) i j = c ∧
    sideXX hx (diffX v) i j = b ∧ sideYX hy (diffY v) i j = c ∧
    sideXY hx (diffX v) i j = b ∧ sideYY hy (diffY v) i j = c ∧
    isoXX hx (diffX v) i j = b ∧ isoYY hy (diffY v) i j = c ∧
    qisoXX hx (diffX v) i j = b ∧ qisoYY hy (diffY v) i j = c := by
  unfold gradCellX gradCellY sideXX sideYX sideXY sideYY isoXX isoYY qisoXX qisoYY diffX diffY affine
  push_cast
  refine ⟨?_, ?_, ?_, ?_, ?_, ?_, ?_, ?_, ?_, ?_⟩ <;> field_simp <;> ring

/-- Exchange of the two axes. -/
def transpose (v : Field2) : Field2 := fun i j => v j i

/-- **C58**: the plain and the orientation gradients treat the two axes alike. -/
theorem c58_axes_alike (v : Field2) (h : ℝ) (i j : ℤ) :
    gradCellY h (diffY (transpose v)) j i = gradCellX h (diffX v) i j ∧
    sideYY h (diffY (transpose v)) j i = sideXX h (diffX v) i j ∧
    sideXY h (diffX (transpose v)) j i = sideYX h (diffY v) i j ∧
    qisoYY h (diffY (transpose v)) j i = qisoXX h (diffX v) i j := by
  unfold gradCellX gradCellY sideXX sideYX sideXY sideYY qisoXX qisoYY diffX diffY transpose
  refine ⟨rfl, rfl, ?_, ?_⟩ <;> ring

/-- **C58** (violation): `grad_side_isotropic` does not: on y sides it averages along the normal instead of along the
side. The two routines differ by a third difference along `y`. -/
theorem c58_violation_isotropic_axes (v : Field2) (h : ℝ) (i j : ℤ) :
    isoYY h (diffY (transpose v)) j i - isoXX h (diffX v) i j =
      1 / h / 12 * ((diffX v (i + 1) j + diffX v (i - 1) j) - (diffX v i (j + 1) + diffX v i (j - 1))) := by
  unfold isoXX isoYY diffX diffY transpose
  ring_nf

/-- **C58** (violation): a concrete field on which the two axes get different gradients. -/
theorem c58_violation_isotropic_differs :
    ∃ v : Field2, isoYY 1 (diffY (transpose v)) 0 0 ≠ isoXX 1 (diffX v) 0 0 := by
  refine ⟨fun i _ => (i : ℝ) ^ 3, ?_⟩
  rw [← sub_ne_zero, c58_violation_isotropic_axes]
  unfold diffX
  norm_num

end AMPE.Tagging.Props
