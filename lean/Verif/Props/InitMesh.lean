import Verif.Model.InitMesh
import Verif.Props.Regrid

/-!
# C130: initial-conditions files and mesh refinement
-/

namespace AMPE.InitMesh.Props

open AMPE.QuatTransfer AMPE.Regrid AMPE.Regrid.Props AMPE.InitMesh

/-! ## Specification -/

section general

variable {ι V : Type}

/-- What a start should give: the coarsest level holds the file, every finer one the refinement of the next coarser one. -/
def Refined (refine : ℕ → (ι → V) → ι → V) : ℕ → Level ι V → List (Level ι V) → Prop
  | _, _, [] => True
  | n, l, m :: rest => (∀ k ∈ m.region, m.val k = refine (n + 1) l.val k) ∧ Refined refine (n + 1) m rest

/-- The refine operators do not leave the range of the values. -/
def Averages (refine : ℕ → (ι → ℝ) → ι → ℝ) : Prop :=
  ∀ n c (lo hi : ℝ), (∀ i, lo ≤ c i ∧ c i ≤ hi) → ∀ k, lo ≤ refine n c k ∧ refine n c k ≤ hi

/-- `F n` are the samples of one function on the levels; refining the samples of a level gives those of the next one. -/
def Exact (refine : ℕ → (ι → V) → ι → V) (F : ℕ → ι → V) : Prop := ∀ n, refine (n + 1) (F n) = F (n + 1)

/-! ## C130: the start -/

/-- **C130** (coarsest level): with the data on level 0 the coarsest level holds the file, and writing level 0 gives it back. -/
theorem c130_base_level (maxLevels : ℕ) (tag : ℕ → Level ι V → Set ι) (refine : ℕ → (ι → V) → ι → V) (domain : Set ι) (mem f : ι → V) :
    ∃ ls, start 0 maxLevels tag refine domain mem (some f) = some ls ∧ ls.head? = some ⟨domain, f⟩ ∧ flatten refine ls 0 = some f :=
  ⟨_, rfl, rfl, rfl⟩

/-- **C130** (one level): if nothing is tagged on level 0 before the file is read, the run starts from the file. -/
theorem c130_one_level_partial (maxLevels : ℕ) (tag : ℕ → Level ι V → Set ι) (refine : ℕ → (ι → V) → ι → V) (domain : Set ι)
    (mem f : ι → V) (h : maxLevels ≤ 1 ∨ tag 0 ⟨domain, mem⟩ = ∅) :
    start 0 maxLevels tag refine domain mem (some f) = some [⟨domain, f⟩] := by
  unfold start coarsest
  simp only [if_true, Option.bind_some, Option.map_some, Option.some.injEq, List.cons.injEq, true_and]
  rcases h with h | h
  · rw [show maxLevels - 1 = 0 by omega]; rfl
  · rcases maxLevels - 1 with _ | n
    · rfl
    · rw [finer, if_pos h]

/-- **C130** (the failure, mesh): the finer levels, their cells and their values, are the same whatever the file holds. -/
theorem c130_violation_mesh (maxLevels : ℕ) (tag : ℕ → Level ι V → Set ι) (refine : ℕ → (ι → V) → ι → V) (domain : Set ι) (mem : ι → V) :
    ∃ rest, ∀ f, start 0 maxLevels tag refine domain mem (some f) = some (⟨domain, f⟩ :: rest) :=
  ⟨_, fun _ => rfl⟩

theorem finer_refined (tag : ℕ → Level ι V → Set ι) (refine : ℕ → (ι → V) → ι → V) (n : ℕ) : ∀ ln l, Refined refine ln l (finer tag refine n ln l) := by
  induction n with
  | zero => intro ln l; trivial
  | succ n ih =>
    intro ln l
    rw [finer]
    split_ifs with h
    · trivial
    · exact ⟨fun _ _ => rfl, ih _ _⟩

/-- **C130** (the failure, values): a refined start is the refinement of the file exactly when, in the cells of level 1, refining what
the memory held before the file was read gives the same values as refining the file. -/
theorem c130_violation_fine (maxLevels : ℕ) (hm : 2 ≤ maxLevels) (tag : ℕ → Level ι V → Set ι) (refine : ℕ → (ι → V) → ι → V)
    (domain : Set ι) (mem f : ι → V) (ht : tag 0 ⟨domain, mem⟩ ≠ ∅) :
    ∃ m rest, start 0 maxLevels tag refine domain mem (some f) = some (⟨domain, f⟩ :: m :: rest) ∧
      m.region = tag 0 ⟨domain, mem⟩ ∧ m.val = refine 1 mem ∧
      (Refined refine 0 ⟨domain, f⟩ (m :: rest) ↔ ∀ k ∈ m.region, refine 1 mem k = refine 1 f k) := by
  obtain ⟨n, hn⟩ : ∃ n, maxLevels - 1 = n + 1 := ⟨maxLevels - 2, by omega⟩
  refine ⟨⟨tag 0 ⟨domain, mem⟩, refine 1 mem⟩, finer tag refine n 1 ⟨tag 0 ⟨domain, mem⟩, refine 1 mem⟩, ?_, rfl, rfl, ?_⟩
  · unfold start coarsest
    simp only [if_true, Option.bind_some, Option.map_some, hn]
    rw [finer, if_neg ht]
  · exact ⟨fun h => h.1, fun h => ⟨h, finer_refined tag refine n 1 _⟩⟩

/-- **C130** (the failure, level of the data): with the data on a finer level the run never starts. -/
theorem c130_violation_level (level maxLevels : ℕ) (tag : ℕ → Level ι V → Set ι) (refine : ℕ → (ι → V) → ι → V) (domain : Set ι)
    (mem : ι → V) (file : Option (ι → V)) (h : level ≠ 0) : start level maxLevels tag refine domain mem file = none := by
  unfold start coarsest
  rw [if_neg h]
  rfl

/-! ## C130: the file written at the end -/

/-- **C130** (when it is written): exactly when the level asked for exists at the end of the run. -/
theorem c130_written_iff (refine : ℕ → (ι → V) → ι → V) (levels : List (Level ι V)) (level : ℕ) :
    (flatten refine levels level).isSome ↔ level < levels.length ∧ level < 10 := by
  unfold flatten
  by_cases h10 : 10 ≤ level
  · rw [if_pos h10]; simp; omega
  · rw [if_neg h10]
    by_cases h0 : level = 0
    · subst h0
      cases levels <;> simp
    · rw [if_neg h0]
      simp
      omega

/-- **C130** (refined cells): in the cells of the level asked for, the file holds that level's values. -/
theorem c130_written_covered (refine : ℕ → (ι → V) → ι → V) (levels : List (Level ι V)) (level : ℕ) (l : Level ι V)
    (hl : levels[level]? = some l) (u : ι → V) (hu : flatten refine levels level = some u) (k : ι) (hk : k ∈ l.region) : u k = l.val k := by
  unfold flatten at hu
  split_ifs at hu with h10 h0
  · subst h0
    rw [List.head?_eq_getElem?, hl] at hu
    rw [← Option.some.inj hu]
  · rw [hl] at hu
    rw [← Option.some.inj hu]
    rcases (levels.take level).reverse with _ | ⟨m, rest⟩
    · rfl
    · show flat refine (m :: rest) l k = _
      rw [flat, if_pos hk]

theorem flat_bounds (refine : ℕ → (ι → ℝ) → ι → ℝ) (hr : Averages refine) (lo hi : ℝ) : ∀ (rest : List (Level ι ℝ)) (l : Level ι ℝ),
    (∀ m ∈ l :: rest, ∀ i, lo ≤ m.val i ∧ m.val i ≤ hi) → ∀ k, lo ≤ flat refine rest l k ∧ flat refine rest l k ≤ hi := by
  intro rest
  induction rest with
  | nil => intro l h k; exact h l (by simp) k
  | cons m rest ih =>
    intro l h k
    rw [flat]
    split_ifs with hk
    · exact h l (by simp) k
    · exact hr _ _ lo hi (fun i => ih m (fun m' hm' => h m' (List.mem_cons_of_mem _ hm')) i) k

/-- **C130** (range): the file holds no value outside the range of the levels. -/
theorem c130_written_bounds (refine : ℕ → (ι → ℝ) → ι → ℝ) (hr : Averages refine) (levels : List (Level ι ℝ)) (level : ℕ) (u : ι → ℝ)
    (hu : flatten refine levels level = some u) (lo hi : ℝ) (h : ∀ m ∈ levels, ∀ i, lo ≤ m.val i ∧ m.val i ≤ hi) (k : ι) :
    lo ≤ u k ∧ u k ≤ hi := by
  unfold flatten at hu
  split_ifs at hu with h10 h0
  · obtain ⟨l, hl, rfl⟩ := Option.map_eq_some_iff.1 hu
    exact h l (List.mem_of_mem_head? hl) k
  · obtain ⟨l, hl, rfl⟩ := Option.map_eq_some_iff.1 hu
    refine flat_bounds refine hr lo hi _ l (fun m hm i => h m ?_ i) k
    rcases List.mem_cons.1 hm with rfl | hm
    · exact List.mem_of_getElem? hl
    · exact List.mem_of_mem_take (List.mem_reverse.1 hm)

theorem flat_exact (refine : ℕ → (ι → V) → ι → V) (F : ℕ → ι → V) (hF : Exact refine F) : ∀ (rest : List (Level ι V)) (l : Level ι V),
    l.val = F rest.length → (∀ j m, rest.reverse[j]? = some m → m.val = F j) → flat refine rest l = F rest.length := by
  intro rest
  induction rest with
  | nil => intro l h _; exact h
  | cons m rest ih =>
    intro l hl hrest
    have hm : m.val = F rest.length := hrest rest.length m (by
      rw [List.reverse_cons, List.getElem?_append_right (by simp)]; simp)
    have e := ih m hm fun j m' hj => hrest j m' (by
      have hlt : j < rest.reverse.length := (List.getElem?_eq_some_iff.1 hj).1
      rw [List.reverse_cons, List.getElem?_append_left hlt, hj])
    funext k
    rw [flat, e, hF]
    split_ifs
    · rw [hl, List.length_cons]
    · rfl

/-- **C130** (exactness): if all levels hold samples of one function that refinement reproduces, so does the file. -/
theorem c130_written_exact (refine : ℕ → (ι → V) → ι → V) (F : ℕ → ι → V) (hF : Exact refine F) (levels : List (Level ι V)) (level : ℕ)
    (u : ι → V) (hu : flatten refine levels level = some u) (h : ∀ j m, levels[j]? = some m → m.val = F j) : u = F level := by
  unfold flatten at hu
  split_ifs at hu with h10 h0
  · subst h0
    obtain ⟨l, hl, rfl⟩ := Option.map_eq_some_iff.1 hu
    rw [List.head?_eq_getElem?] at hl
    exact h 0 l hl
  · obtain ⟨l, hl, rfl⟩ := Option.map_eq_some_iff.1 hu
    have hlt : level < levels.length := (List.getElem?_eq_some_iff.1 hl).1
    have hlen : (levels.take level).reverse.length = level := by simp; omega
    have := flat_exact refine F hF (levels.take level).reverse l (by rw [hlen]; exact h level l hl) (fun j m hj => by
      rw [List.reverse_reverse] at hj
      have hj' : j < level := by
        have := (List.getElem?_eq_some_iff.1 hj).1
        simp at this; omega
      rw [List.getElem?_take_of_lt hj'] at hj
      exact h j m hj)
    rw [this, hlen]

end general

/-! ## The operator of SAMRAI -/

/-- `LINEAR_REFINE` as a function (it is defined in every cell for ratios up to 16: `lin2_eq`). -/
noncomputable def lin2 (r0 r1 : ℕ) (dx0 dx1 : ℝ) (c : ℤ × ℤ → ℝ) (k : ℤ × ℤ) : ℝ :=
  (linRefine2 r0 r1 dx0 dx1 (r0 * dx0) (r1 * dx1) c k).getD 0

noncomputable def lin3 (r0 r1 r2 : ℕ) (dx0 dx1 dx2 : ℝ) (c : ℤ × ℤ × ℤ → ℝ) (k : ℤ × ℤ × ℤ) : ℝ :=
  (linRefine3 r0 r1 r2 dx0 dx1 dx2 (r0 * dx0) (r1 * dx1) (r2 * dx2) c k).getD 0

theorem point (r : ℕ) (h : 0 < r ∧ r ≤ 16) (dx : ℝ) (hx : 0 < dx) (k : ℤ) :
    ∃ l, locate k r dx (r * dx) = some l ∧ 0 ≤ l.2.2 ∧ l.2.2 ≤ 1 ∧
      ∀ a b : ℝ, lin l (fun i => a + b * (((i : ℝ) + 1 / 2) * (r * dx))) = a + b * (((k : ℝ) + 1 / 2) * dx) := by
  have hr : (0 : ℤ) < r := by exact_mod_cast h.1
  have hrr : (0 : ℝ) < r := by exact_mod_cast h.1
  have e0 := Int.emod_nonneg k hr.ne'
  have e1 := Int.emod_lt_of_pos k hr
  have e2 := Int.emod_add_mul_ediv k r
  obtain ⟨l, h1, h2, h3, h4⟩ := lin_value r (k % r).toNat (by omega) h.2 dx hx (k / r)
  have hk : k / r * r + ((k % r).toNat : ℤ) = k := by
    rw [Int.toNat_of_nonneg e0]; linarith [mul_comm (k / (r : ℤ)) (r : ℤ)]
  rw [hk] at h1
  refine ⟨l, h1, h2, h3, fun a b => ?_⟩
  rw [h4]
  have hkr : (k : ℝ) = ((k / (r : ℤ) : ℤ) : ℝ) * r + (((k % r).toNat : ℕ) : ℝ) := by exact_mod_cast hk.symm
  set x := 2 * (((k % r).toNat : ℕ) : ℝ) + 1 - r with hx'
  have hmax : max 0 x - max 0 (-x) = x := by
    rcases le_total 0 x with hh | hh
    · rw [max_eq_right hh, max_eq_left (by linarith)]; ring
    · rw [max_eq_left hh, max_eq_right (by linarith)]; ring
  push_cast
  rw [hkr]
  have : ∀ u v : ℝ, u / (2 * r) * (b * (r * dx)) + v / (2 * r) * (-(b * (r * dx))) = b * dx / 2 * (u - v) := fun u v => by
    field_simp
    ring
  have e := this (max 0 x) (max 0 (-x))
  rw [hmax] at e
  have g : (((k % r).toNat : ℕ) : ℝ) = (x - 1 + r) / 2 := by rw [hx']; ring
  rw [g]
  linear_combination e

theorem lin2_eq (r0 r1 : ℕ) (h0 : 0 < r0 ∧ r0 ≤ 16) (h1 : 0 < r1 ∧ r1 ≤ 16) (dx0 dx1 : ℝ) (hx0 : 0 < dx0) (hx1 : 0 < dx1) (k : ℤ × ℤ) :
    ∃ l0 l1 : ℤ × ℤ × ℝ, (0 ≤ l0.2.2 ∧ l0.2.2 ≤ 1) ∧ (0 ≤ l1.2.2 ∧ l1.2.2 ≤ 1) ∧
      (∀ a b : ℝ, lin l0 (fun i => a + b * (((i : ℝ) + 1 / 2) * (r0 * dx0))) = a + b * (((k.1 : ℝ) + 1 / 2) * dx0)) ∧
      (∀ a b : ℝ, lin l1 (fun i => a + b * (((i : ℝ) + 1 / 2) * (r1 * dx1))) = a + b * (((k.2 : ℝ) + 1 / 2) * dx1)) ∧
      ∀ c, linRefine2 r0 r1 dx0 dx1 (r0 * dx0) (r1 * dx1) c k = some (lin2 r0 r1 dx0 dx1 c k) ∧
        lin2 r0 r1 dx0 dx1 c k = lin l1 fun j => lin l0 fun i => c (i, j) := by
  obtain ⟨l0, a0, b0, c0, d0⟩ := point r0 h0 dx0 hx0 k.1
  obtain ⟨l1, a1, b1, c1, d1⟩ := point r1 h1 dx1 hx1 k.2
  refine ⟨l0, l1, ⟨b0, c0⟩, ⟨b1, c1⟩, d0, d1, fun c => ?_⟩
  have e : linRefine2 r0 r1 dx0 dx1 (r0 * dx0) (r1 * dx1) c k = some (lin l1 fun j => lin l0 fun i => c (i, j)) := by
    unfold linRefine2
    rw [a0, a1]
    simp only [Option.bind_some, Option.map_some, Option.some.injEq, bilinear, lin]
    ring
  rw [lin2, e]
  exact ⟨rfl, rfl⟩

theorem lin3_eq (r0 r1 r2 : ℕ) (h0 : 0 < r0 ∧ r0 ≤ 16) (h1 : 0 < r1 ∧ r1 ≤ 16) (h2 : 0 < r2 ∧ r2 ≤ 16) (dx0 dx1 dx2 : ℝ)
    (hx0 : 0 < dx0) (hx1 : 0 < dx1) (hx2 : 0 < dx2) (k : ℤ × ℤ × ℤ) :
    ∃ l0 l1 l2 : ℤ × ℤ × ℝ, (0 ≤ l0.2.2 ∧ l0.2.2 ≤ 1) ∧ (0 ≤ l1.2.2 ∧ l1.2.2 ≤ 1) ∧ (0 ≤ l2.2.2 ∧ l2.2.2 ≤ 1) ∧
      (∀ a b : ℝ, lin l0 (fun i => a + b * (((i : ℝ) + 1 / 2) * (r0 * dx0))) = a + b * (((k.1 : ℝ) + 1 / 2) * dx0)) ∧
      (∀ a b : ℝ, lin l1 (fun i => a + b * (((i : ℝ) + 1 / 2) * (r1 * dx1))) = a + b * (((k.2.1 : ℝ) + 1 / 2) * dx1)) ∧
      (∀ a b : ℝ, lin l2 (fun i => a + b * (((i : ℝ) + 1 / 2) * (r2 * dx2))) = a + b * (((k.2.2 : ℝ) + 1 / 2) * dx2)) ∧
      ∀ c, linRefine3 r0 r1 r2 dx0 dx1 dx2 (r0 * dx0) (r1 * dx1) (r2 * dx2) c k = some (lin3 r0 r1 r2 dx0 dx1 dx2 c k) ∧
        lin3 r0 r1 r2 dx0 dx1 dx2 c k = lin l2 fun m => lin l1 fun j => lin l0 fun i => c (i, j, m) := by
  obtain ⟨l0, a0, b0, c0, d0⟩ := point r0 h0 dx0 hx0 k.1
  obtain ⟨l1, a1, b1, c1, d1⟩ := point r1 h1 dx1 hx1 k.2.1
  obtain ⟨l2, a2, b2, c2, d2⟩ := point r2 h2 dx2 hx2 k.2.2
  refine ⟨l0, l1, l2, ⟨b0, c0⟩, ⟨b1, c1⟩, ⟨b2, c2⟩, d0, d1, d2, fun c => ?_⟩
  have e : linRefine3 r0 r1 r2 dx0 dx1 dx2 (r0 * dx0) (r1 * dx1) (r2 * dx2) c k =
      some (lin l2 fun m => lin l1 fun j => lin l0 fun i => c (i, j, m)) := by
    unfold linRefine3
    rw [a0, a1, a2]
    simp only [Option.bind_some, Option.map_some, Option.some.injEq, trilinear, lin]
    ring
  rw [lin3, e]
  exact ⟨rfl, rfl⟩

theorem lin_between (l : ℤ × ℤ × ℝ) (hl : 0 ≤ l.2.2 ∧ l.2.2 ≤ 1) (f : ℤ → ℝ) (lo hi : ℝ) (hf : ∀ i, lo ≤ f i ∧ f i ≤ hi) :
    lo ≤ lin l f ∧ lin l f ≤ hi := by
  have e : lin l f = (1 - l.2.2) * f l.2.1 + l.2.2 * f (l.2.1 + 1) := by unfold lin; ring
  have h1 := hf l.2.1
  have h2 := hf (l.2.1 + 1)
  rw [e]
  constructor <;> nlinarith [hl.1, hl.2]

theorem lin_affine_const (l : ℤ × ℤ × ℝ) (f : ℤ → ℝ) (a : ℝ) : lin l (fun j => a + f j) = a + lin l f := by unfold lin; ring

/-- **C130**: with `LINEAR_REFINE` between the levels, in two dimensions, the file stays in the range of the levels and reproduces affine
fields; spacings `h0 n`, `h1 n` of level `n`, ratios `r0 n`, `r1 n` to the next coarser one. -/
theorem c130_written_linear_2d (r0 r1 : ℕ → ℕ) (h0 : ∀ n, 0 < r0 n ∧ r0 n ≤ 16) (h1 : ∀ n, 0 < r1 n ∧ r1 n ≤ 16) (dx0 dx1 : ℕ → ℝ)
    (hx0 : ∀ n, 0 < dx0 n) (hx1 : ∀ n, 0 < dx1 n) (hr0 : ∀ n, dx0 n = r0 (n + 1) * dx0 (n + 1))
    (hr1 : ∀ n, dx1 n = r1 (n + 1) * dx1 (n + 1)) :
    Averages (fun n => lin2 (r0 n) (r1 n) (dx0 n) (dx1 n)) ∧
    ∀ a b c : ℝ, Exact (fun n => lin2 (r0 n) (r1 n) (dx0 n) (dx1 n))
      fun n k => a + b * (((k.1 : ℝ) + 1 / 2) * dx0 n) + c * (((k.2 : ℝ) + 1 / 2) * dx1 n) := by
  constructor
  · intro n u lo hi hu k
    obtain ⟨l0, l1, p0, p1, -, -, e⟩ := lin2_eq (r0 n) (r1 n) (h0 n) (h1 n) (dx0 n) (dx1 n) (hx0 n) (hx1 n) k
    show lo ≤ lin2 (r0 n) (r1 n) (dx0 n) (dx1 n) u k ∧ lin2 (r0 n) (r1 n) (dx0 n) (dx1 n) u k ≤ hi
    rw [(e u).2]
    exact lin_between l1 p1 _ lo hi fun j => lin_between l0 p0 _ lo hi fun i => hu _
  · intro a b c n
    funext k
    obtain ⟨l0, l1, -, -, q0, q1, e⟩ := lin2_eq (r0 (n + 1)) (r1 (n + 1)) (h0 _) (h1 _) (dx0 (n + 1)) (dx1 (n + 1)) (hx0 _) (hx1 _) k
    show lin2 _ _ _ _ _ k = _
    rw [(e _).2]
    simp only [hr0 n, hr1 n]
    have i1 : ∀ j : ℤ, lin l0 (fun i => a + b * (((i : ℝ) + 1 / 2) * (r0 (n + 1) * dx0 (n + 1))) +
        c * (((j : ℝ) + 1 / 2) * (r1 (n + 1) * dx1 (n + 1)))) =
        (a + b * (((k.1 : ℝ) + 1 / 2) * dx0 (n + 1))) + c * (((j : ℝ) + 1 / 2) * (r1 (n + 1) * dx1 (n + 1))) := fun j => by
      rw [← q0 a b]; unfold lin; ring
    simp only [i1]
    exact q1 _ c

/-- **C130**: the same in three dimensions. -/
theorem c130_written_linear_3d (r0 r1 r2 : ℕ → ℕ) (h0 : ∀ n, 0 < r0 n ∧ r0 n ≤ 16) (h1 : ∀ n, 0 < r1 n ∧ r1 n ≤ 16)
    (h2 : ∀ n, 0 < r2 n ∧ r2 n ≤ 16) (dx0 dx1 dx2 : ℕ → ℝ) (hx0 : ∀ n, 0 < dx0 n) (hx1 : ∀ n, 0 < dx1 n) (hx2 : ∀ n, 0 < dx2 n)
    (hr0 : ∀ n, dx0 n = r0 (n + 1) * dx0 (n + 1)) (hr1 : ∀ n, dx1 n = r1 (n + 1) * dx1 (n + 1))
    (hr2 : ∀ n, dx2 n = r2 (n + 1) * dx2 (n + 1)) :
    Averages (fun n => lin3 (r0 n) (r1 n) (r2 n) (dx0 n) (dx1 n) (dx2 n)) ∧
    ∀ a b c d : ℝ, Exact (fun n => lin3 (r0 n) (r1 n) (r2 n) (dx0 n) (dx1 n) (dx2 n))
      fun n k => a + b * (((k.1 : ℝ) + 1 / 2) * dx0 n) + c * (((k.2.1 : ℝ) + 1 / 2) * dx1 n) + d * (((k.2.2 : ℝ) + 1 / 2) * dx2 n) := by
  constructor
  · intro n u lo hi hu k
    obtain ⟨l0, l1, l2, p0, p1, p2, -, -, -, e⟩ := lin3_eq (r0 n) (r1 n) (r2 n) (h0 n) (h1 n) (h2 n) (dx0 n) (dx1 n) (dx2 n) (hx0 n)
      (hx1 n) (hx2 n) k
    show lo ≤ lin3 (r0 n) (r1 n) (r2 n) (dx0 n) (dx1 n) (dx2 n) u k ∧ lin3 (r0 n) (r1 n) (r2 n) (dx0 n) (dx1 n) (dx2 n) u k ≤ hi
    rw [(e u).2]
    exact lin_between l2 p2 _ lo hi fun m => lin_between l1 p1 _ lo hi fun j => lin_between l0 p0 _ lo hi fun i => hu _
  · intro a b c d n
    funext k
    obtain ⟨l0, l1, l2, -, -, -, q0, q1, q2, e⟩ := lin3_eq (r0 (n + 1)) (r1 (n + 1)) (r2 (n + 1)) (h0 _) (h1 _) (h2 _) (dx0 (n + 1))
      (dx1 (n + 1)) (dx2 (n + 1)) (hx0 _) (hx1 _) (hx2 _) k
    show lin3 _ _ _ _ _ _ _ k = _
    rw [(e _).2]
    simp only [hr0 n, hr1 n, hr2 n]
    have i1 : ∀ j m : ℤ, lin l0 (fun i => a + b * (((i : ℝ) + 1 / 2) * (r0 (n + 1) * dx0 (n + 1))) +
        c * (((j : ℝ) + 1 / 2) * (r1 (n + 1) * dx1 (n + 1))) + d * (((m : ℝ) + 1 / 2) * (r2 (n + 1) * dx2 (n + 1)))) =
        (a + b * (((k.1 : ℝ) + 1 / 2) * dx0 (n + 1))) + c * (((j : ℝ) + 1 / 2) * (r1 (n + 1) * dx1 (n + 1)))
          + d * (((m : ℝ) + 1 / 2) * (r2 (n + 1) * dx2 (n + 1))) := fun j m => by
      rw [← q0 a b]; unfold lin; ring
    have i2 : ∀ m : ℤ, lin l1 (fun j => (a + b * (((k.1 : ℝ) + 1 / 2) * dx0 (n + 1))) + c * (((j : ℝ) + 1 / 2) * (r1 (n + 1) * dx1 (n + 1)))
          + d * (((m : ℝ) + 1 / 2) * (r2 (n + 1) * dx2 (n + 1)))) =
        (a + b * (((k.1 : ℝ) + 1 / 2) * dx0 (n + 1))) + c * (((k.2.1 : ℝ) + 1 / 2) * dx1 (n + 1))
          + d * (((m : ℝ) + 1 / 2) * (r2 (n + 1) * dx2 (n + 1))) := fun m => by
      rw [← q1 _ c]; unfold lin; ring
    simp only [i1, i2]
    exact q2 _ d

/-- **C130** (the failure, refined start): with a mesh refined from the start (boxes of the input) and memory that was zero, level 1
starts from zero in all its cells, whatever the file. -/
theorem c130_violation_zero (r0 r1 : ℕ → ℕ) (h0 : ∀ n, 0 < r0 n ∧ r0 n ≤ 16) (h1 : ∀ n, 0 < r1 n ∧ r1 n ≤ 16) (dx0 dx1 : ℕ → ℝ)
    (hx0 : ∀ n, 0 < dx0 n) (hx1 : ∀ n, 0 < dx1 n) (maxLevels : ℕ) (hm : 2 ≤ maxLevels)
    (tag : ℕ → Level (ℤ × ℤ) ℝ → Set (ℤ × ℤ)) (domain : Set (ℤ × ℤ)) (ht : tag 0 ⟨domain, fun _ => 0⟩ ≠ ∅) (f : ℤ × ℤ → ℝ) :
    ∃ m rest, start 0 maxLevels tag (fun n => lin2 (r0 n) (r1 n) (dx0 n) (dx1 n)) domain (fun _ => 0) (some f) =
      some (⟨domain, f⟩ :: m :: rest) ∧ m.region.Nonempty ∧ ∀ k, m.val k = 0 := by
  obtain ⟨m, rest, e, hr, hv, -⟩ := c130_violation_fine maxLevels hm tag (fun n => lin2 (r0 n) (r1 n) (dx0 n) (dx1 n)) domain (fun _ => 0) f ht
  refine ⟨m, rest, e, by rw [hr]; exact Set.nonempty_iff_ne_empty.2 ht, fun k => ?_⟩
  rw [hv]
  obtain ⟨l0, l1, p0, p1, -, -, e⟩ := lin2_eq (r0 1) (r1 1) (h0 1) (h1 1) (dx0 1) (dx1 1) (hx0 1) (hx1 1) k
  show lin2 _ _ _ _ _ k = 0
  rw [(e _).2]
  simp [lin]

/-! ### Amounts and orientations in the file -/

/-- **C130** (the failure, amounts): two levels in two dimensions, levels synchronised; the file asked for on level 1 holds the amount of
the hierarchy plus the second differences of the coarse level summed over the cells that are not refined. -/
theorem c130_violation_amount (r0 r1 : ℕ) (h0 : 0 < r0 ∧ r0 ≤ 16) (h1 : 0 < r1 ∧ r1 ≤ 16) (dx0 dx1 : ℝ) (hx0 : 0 < dx0) (hx1 : 0 < dx1)
    (dom : Finset (ℤ × ℤ)) (s : AMPE.Regrid.Field (ℤ × ℤ)) :
    ∃ u, flatten (fun _ => lin2 r0 r1 dx0 dx1) [⟨(dom : Set (ℤ × ℤ)), synced2 r0 r1 dx0 dx1 s⟩,
        ⟨{k | ∃ i ∈ s.region, k ∈ kids2 r0 r1 i}, s.fine⟩] 1 = some u ∧
      (∑ i ∈ dom, ∑ k ∈ kids2 r0 r1 i, dx0 * dx1 * u k) = amount2 r0 r1 dx0 dx1 dom s +
        r0 * r1 * (dx0 * dx1) * ∑ i ∈ dom.filter (fun i => i ∉ s.region), excess2 r0 r1 (synced2 r0 r1 dx0 dx1 s) i := by
  classical
  refine ⟨_, rfl, ?_⟩
  set u : ℤ × ℤ → ℝ := flat (fun _ => lin2 r0 r1 dx0 dx1) [⟨(dom : Set (ℤ × ℤ)), synced2 r0 r1 dx0 dx1 s⟩]
    ⟨{k | ∃ i ∈ s.region, k ∈ kids2 r0 r1 i}, s.fine⟩ with hu
  have own : ∀ i j k, k ∈ kids2 r0 r1 i → k ∈ kids2 r0 r1 j → i = j := by
    intro i j k hi hj
    simp only [kids2, Finset.mem_image, Finset.mem_product, Finset.mem_range] at hi hj
    obtain ⟨⟨a, b⟩, ⟨ha, hb⟩, e⟩ := hi
    obtain ⟨⟨a', b'⟩, ⟨ha', hb'⟩, e'⟩ := hj
    have key : ∀ (r x : ℕ) (i : ℤ), x < r → (i * r + (x : ℤ)) / (r : ℤ) = i := fun r x i hx => by
      rw [add_comm, Int.add_mul_ediv_right _ _ (by omega), Int.ediv_eq_zero_of_lt (by omega) (by omega), zero_add]
    refine Prod.ext ?_ ?_
    · rw [← key r0 a i.1 ha, ← key r0 a' j.1 ha', show i.1 * (r0 : ℤ) + a = k.1 from congrArg Prod.fst e,
        show j.1 * (r0 : ℤ) + a' = k.1 from congrArg Prod.fst e']
    · rw [← key r1 b i.2 hb, ← key r1 b' j.2 hb', show i.2 * (r1 : ℤ) + b = k.2 from congrArg Prod.snd e,
        show j.2 * (r1 : ℤ) + b' = k.2 from congrArg Prod.snd e']
  have hreg : Regrid2 r0 r1 dx0 dx1 s dom ⟨synced2 r0 r1 dx0 dx1 s, dom, u⟩ := by
    refine ⟨rfl, rfl, fun i _ k hk => ?_⟩
    by_cases hs : i ∈ s.region
    · rw [if_pos (show i ∈ (coarsenData (kids2 r0 r1) (dx0 * dx1) (1 / (r0 * r1 * (dx0 * dx1))) s).region from hs)]
      show u k = s.fine k
      rw [hu, flat, if_pos ⟨i, hs, hk⟩]
    · rw [if_neg (show i ∉ (coarsenData (kids2 r0 r1) (dx0 * dx1) (1 / (r0 * r1 * (dx0 * dx1))) s).region from hs)]
      obtain ⟨_, _, _, _, _, _, e⟩ := lin2_eq r0 r1 h0 h1 dx0 dx1 hx0 hx1 k
      refine (e _).1.trans (congrArg some ?_)
      show _ = u k
      rw [hu, flat, if_neg]
      · rfl
      · rintro ⟨j, hj, hkj⟩
        exact hs (own i j k hk hkj ▸ hj)
  have := c83_regrid_amount_2d r0 r1 h0 h1 dx0 dx1 hx0 hx1 dom dom s _ hreg
  have e1 : amount2 r0 r1 dx0 dx1 dom ⟨synced2 r0 r1 dx0 dx1 s, dom, u⟩ = ∑ i ∈ dom, ∑ k ∈ kids2 r0 r1 i, dx0 * dx1 * u k := by
    unfold amount2 amount
    exact Finset.sum_congr rfl fun i hi => by rw [if_pos hi]
  show (∑ i ∈ dom, ∑ k ∈ kids2 r0 r1 i, dx0 * dx1 * u k) = _
  rw [← e1, this]
  congr 2
  refine Finset.sum_congr (Finset.filter_congr fun i hi => ?_) fun _ _ => rfl
  simp [hi]

/-- **C130** (the failure, orientations): the writer refines orientations componentwise, without normalisation and whatever the symmetry
option; with unit orientations that differ from column to column, ratio two, every cell not on the level asked for gets an orientation
shorter than one.  Nothing on the reading side repairs it (`normalizeQuat`, source/QuatModel.cc:4222-4276, has no caller). -/
theorem c130_violation_length (dx0 dx1 : ℝ) (hx0 : 0 < dx0) (hx1 : 0 < dx1) (domain fineCells : Set (ℤ × ℤ))
    (q fine : ℤ × ℤ → AMPE.Quat.Q4)
    (hq : ∀ i, q i ∈ {p : AMPE.Quat.Q4 | p.q1 ^ 2 + p.q2 ^ 2 + p.q3 ^ 2 + p.q4 ^ 2 = 1})
    (hne : ∀ a b : ℤ, 0 < distSq (q (a, b)) (q (a + 1, b))) :
    ∃ u, flatten (fun _ c k => (linRefineQ2 2 2 dx0 dx1 (2 * dx0) (2 * dx1) c k).getD ⟨0, 0, 0, 0⟩)
        [⟨domain, q⟩, ⟨fineCells, fine⟩] 1 = some u ∧
      ∀ k, k ∉ fineCells → (u k).q1 ^ 2 + (u k).q2 ^ 2 + (u k).q3 ^ 2 + (u k).q4 ^ 2 < 1 := by
  refine ⟨_, rfl, fun k hk => ?_⟩
  have e : ∀ x : ℤ, x / 2 * 2 + ((x % 2).toNat : ℤ) = x := fun x => by omega
  obtain ⟨p, hp, hlt⟩ := c17_violation_shorter dx0 dx1 hx0 hx1 q hq hne (k.1 / 2, k.2 / 2) (k.1 % 2).toNat (k.2 % 2).toNat (by omega) (by omega)
  rw [show ((k.1 / 2, k.2 / 2) : ℤ × ℤ).1 * 2 + (((k.1 % 2).toNat : ℕ) : ℤ) = k.1 from e k.1,
    show ((k.1 / 2, k.2 / 2) : ℤ × ℤ).2 * 2 + (((k.2 % 2).toNat : ℕ) : ℤ) = k.2 from e k.2] at hp
  have : flat (fun _ c k => (linRefineQ2 2 2 dx0 dx1 (2 * dx0) (2 * dx1) c k).getD ⟨0, 0, 0, 0⟩) [⟨domain, q⟩] ⟨fineCells, fine⟩ k = p := by
    rw [flat, if_neg hk]
    show (linRefineQ2 2 2 dx0 dx1 (2 * dx0) (2 * dx1) q (k.1, k.2)).getD _ = p
    rw [hp]; rfl
  simp only [List.take_succ_cons, List.take_zero, List.reverse_cons, List.reverse_nil, List.nil_append]
  rw [this]
  exact hlt

/-! ### Examples -/

/-- A refined start that holds zero where the file holds one. -/
example : ∃ m rest, start 0 2 (fun _ _ => {k : ℤ × ℤ | 0 ≤ k.1 ∧ k.1 < 4}) (fun _ => lin2 2 2 1 1) Set.univ (fun _ => 0)
    (some fun _ => 1) = some (⟨Set.univ, fun _ => 1⟩ :: m :: rest) ∧ m.region.Nonempty ∧ ∀ k, m.val k = 0 :=
  c130_violation_zero (fun _ => 2) (fun _ => 2) (fun _ => by norm_num) (fun _ => by norm_num) (fun _ => 1) (fun _ => 1)
    (fun _ => one_pos) (fun _ => one_pos) 2 le_rfl _ _ (Set.nonempty_iff_ne_empty.1 ⟨(0, 0), by norm_num⟩) _

end AMPE.InitMesh.Props
