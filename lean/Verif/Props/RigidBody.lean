import Verif.Model.RigidBody
import Verif.Props.QuatTransfer
import Verif.Props.MultiOrder

/-! # C37, C38, C57: rigid-body forces, pair energies, rigid-body motion -/

namespace AMPE.RigidBody.Props

open AMPE.Functions AMPE.Flux AMPE.RigidBody AMPE.QuatTransfer.Props

theorem applyUpdates_eq (l : List (ℕ × ℝ)) (a : ℕ → ℝ) (k : ℕ) :
    applyUpdates l a k = a k + (l.map fun u => if k = u.1 then u.2 else 0).sum := by
  induction l generalizing a with
  | nil => simp [applyUpdates]
  | cons u l ih =>
    have : applyUpdates (u :: l) a = applyUpdates l (fun k => if k = u.1 then a k + u.2 else a k) := rfl
    rw [this, ih]
    simp only [List.map_cons, List.sum_cons]
    split_ifs <;> ring

theorem map_flatMap_sum {α β : Type} (l : List α) (g : α → List β) (h : β → ℝ) :
    ((l.flatMap g).map h).sum = (l.map fun a => ((g a).map h).sum).sum := by
  rw [List.map_flatMap, flatMap_sum]

/-- Slots of different (pair, direction) triples never coincide. -/
theorem slot_inj {D n a b d i j e : ℕ} (hb : b < n) (hd : d < D) (hj : j < n) (he : e < D) :
    D * (n * a + b) + (1 + d) = D * (n * i + j) + (1 + e) ↔ a = i ∧ b = j ∧ d = e := by
  constructor
  · intro h
    have h' : D * (n * a + b) + d = D * (n * i + j) + e := by lia
    have hD : 0 < D := by lia
    have hn : 0 < n := by lia
    have m1 : d = e := by
      have := congrArg (· % D) h'
      simpa [Nat.mul_add_mod, Nat.mod_eq_of_lt hd, Nat.mod_eq_of_lt he] using this
    have q1 : n * a + b = n * i + j := by
      subst m1
      have : D * (n * a + b) = D * (n * i + j) := by lia
      exact Nat.eq_of_mul_eq_mul_left hD this
    have m2 : b = j := by
      have := congrArg (· % n) q1
      simpa [Nat.mul_add_mod, Nat.mod_eq_of_lt hb, Nat.mod_eq_of_lt hj] using this
    have : n * a = n * i := by lia
    exact ⟨Nat.eq_of_mul_eq_mul_left hn this, m2, m1⟩
  · rintro ⟨rfl, rfl, rfl⟩; rfl

theorem slot_sum {D n a b i j e : ℕ} (hb : b < n) (hj : j < n) (he : e < D) (g : ℕ → ℝ) :
    (∑ d ∈ Finset.range D, if D * (n * i + j) + (1 + e) = D * (n * a + b) + (1 + d) then g d else 0) =
      if i = a ∧ j = b then g e else 0 := by
  rw [Finset.sum_eq_single e]
  · by_cases h : i = a ∧ j = b
    · obtain ⟨rfl, rfl⟩ := h; simp
    · rw [if_neg h, if_neg]
      rw [slot_inj hj he hb he]; tauto
  · intro d hd hne
    rw [if_neg]
    rw [slot_inj hj he hb (Finset.mem_range.mp hd)]; tauto
  · intro h; exact absurd (Finset.mem_range.mpr he) h

theorem list_ite_sum {ι : Type} (l : List ι) (p q : Prop) [Decidable p] [Decidable q] (x y : ι → ℝ) :
    (l.map fun c => (if p then x c else 0) + if q then y c else 0).sum =
      (if p then (l.map x).sum else 0) + if q then (l.map y).sum else 0 := by
  induction l with
  | nil => simp
  | cons c l ih =>
    simp only [List.map_cons, List.sum_cons, ih]
    split_ifs <;> ring

theorem list_neg_sum {ι : Type} (l : List ι) (x : ι → ℝ) : (l.map fun c => -(x c)).sum = -(l.map x).sum := by
  induction l with
  | nil => simp
  | cons c l ih => simp only [List.map_cons, List.sum_cons, ih]; ring

/-- Specification: integral of the pair force over a patch. -/
noncomputable def patchForce {ι : Type} (P : FPatch ι) (a b d : ℕ) : ℝ := (P.cells.map fun c => P.dens a b c d * P.weight c).sum

/-- One patch: what `wang_forces` adds to the slot read for pair `(i, j)` and direction `e`. -/
theorem wang_patch {ι : Type} (D n : ℕ) (P : FPatch ι) (f : ℕ → ℝ) (i j e : ℕ) (hi : i < n) (hj : j < n) (he : e < D) :
    applyUpdates (wangUpdates D n P) f (D * (n * i + j) + (1 + e)) = f (D * (n * i + j) + (1 + e)) +
      ((if j < i then patchForce P i j e else 0) - if i < j then patchForce P j i e else 0) := by
  rw [applyUpdates_eq]
  congr 1
  unfold wangUpdates
  rw [map_flatMap_sum, list_range_sum]
  have inner : ∀ a ∈ Finset.range n, (((List.range a).flatMap fun b => P.cells.flatMap fun c =>
      ((List.range D).map fun d => (D * (n * a + b) + (1 + d), P.dens a b c d * P.weight c))
        ++ (List.range D).map fun d => (D * (n * b + a) + (1 + d), -(P.dens a b c d * P.weight c))).map
      fun u : ℕ × ℝ => if D * (n * i + j) + (1 + e) = u.1 then u.2 else 0).sum =
      ∑ b ∈ Finset.range a, ((if i = a ∧ j = b then patchForce P a b e else 0)
        + if i = b ∧ j = a then -patchForce P a b e else 0) := by
    intro a ha
    rw [map_flatMap_sum, list_range_sum]
    refine Finset.sum_congr rfl fun b hb => ?_
    have ha' := Finset.mem_range.mp ha
    have hb' := Finset.mem_range.mp hb
    rw [map_flatMap_sum]
    have cell : ∀ c, ((((List.range D).map fun d => (D * (n * a + b) + (1 + d), P.dens a b c d * P.weight c))
        ++ (List.range D).map fun d => (D * (n * b + a) + (1 + d), -(P.dens a b c d * P.weight c))).map
        fun u : ℕ × ℝ => if D * (n * i + j) + (1 + e) = u.1 then u.2 else 0).sum =
        (if i = a ∧ j = b then P.dens a b c e * P.weight c else 0)
          + if i = b ∧ j = a then -(P.dens a b c e * P.weight c) else 0 := by
      intro c
      rw [List.map_append, List.sum_append, List.map_map, List.map_map]
      simp only [Function.comp_def]
      rw [list_range_sum, list_range_sum, slot_sum (by lia) hj he, slot_sum (by lia) hj he]
    simp only [cell]
    rw [list_ite_sum, list_neg_sum]
    rfl
  rw [Finset.sum_congr rfl inner]
  simp only [Finset.sum_add_distrib]
  have A : (∑ a ∈ Finset.range n, ∑ b ∈ Finset.range a, if i = a ∧ j = b then patchForce P a b e else 0) =
      if j < i then patchForce P i j e else 0 := by
    rw [Finset.sum_eq_single i]
    · by_cases h : j < i
      · rw [Finset.sum_eq_single j]
        · simp [h]
        · intro b _ hb; rw [if_neg]; tauto
        · intro hb; exact absurd (Finset.mem_range.mpr h) hb
      · rw [if_neg h]
        refine Finset.sum_eq_zero fun b hb => if_neg ?_
        have := Finset.mem_range.mp hb
        lia
    · intro a _ ha; refine Finset.sum_eq_zero fun b _ => if_neg ?_; tauto
    · intro h; exact absurd (Finset.mem_range.mpr hi) h
  have B : (∑ a ∈ Finset.range n, ∑ b ∈ Finset.range a, if i = b ∧ j = a then -patchForce P a b e else 0) =
      -(if i < j then patchForce P j i e else 0) := by
    rw [Finset.sum_eq_single j]
    · by_cases h : i < j
      · rw [Finset.sum_eq_single i]
        · simp [h]
        · intro b _ hb; rw [if_neg]; tauto
        · intro hb; exact absurd (Finset.mem_range.mpr h) hb
      · rw [if_neg h, neg_zero]
        refine Finset.sum_eq_zero fun b hb => if_neg ?_
        have := Finset.mem_range.mp hb
        lia
    · intro a _ ha; refine Finset.sum_eq_zero fun b _ => if_neg ?_; tauto
    · intro h; exact absurd (Finset.mem_range.mpr hj) h
  rw [A, B]
  ring

theorem foldl_patches {ι : Type} (upd : FPatch ι → List (ℕ × ℝ)) (val : FPatch ι → ℝ) (k : ℕ)
    (h : ∀ P f, applyUpdates (upd P) f k = f k + val P) (patches : List (FPatch ι)) (f : ℕ → ℝ) :
    patches.foldl (fun a P => applyUpdates (upd P) a) f k = f k + (patches.map val).sum := by
  induction patches generalizing f with
  | nil => simp
  | cons P l ih => rw [List.foldl_cons, ih, h]; simp only [List.map_cons, List.sum_cons]; ring

/-- Specification: the force of one pair integrated over every patch of every process. -/
noncomputable def totalPair {ι : Type} (stiffness : ℝ) (ranks : List (List (FPatch ι))) (a b d : ℕ) : ℝ :=
  stiffness * (ranks.flatten.map fun P => patchForce P a b d).sum

theorem sum_flatten {α : Type} (L : List (List α)) (f : α → ℝ) (s : ℝ) :
    (L.map fun l => (l.map f).sum * s).sum = s * (L.flatten.map f).sum := by
  induction L with
  | nil => simp
  | cons l L ih =>
    simp only [List.map_cons, List.sum_cons, List.flatten_cons, List.map_append, List.sum_append, ih]; ring

theorem list_map_sub {α : Type} (l : List α) (x : α → ℝ) (p q : Prop) [Decidable p] [Decidable q] (y : α → ℝ) :
    (l.map fun P => (if p then x P else 0) - if q then y P else 0).sum =
      (if p then (l.map x).sum else 0) - if q then (l.map y).sum else 0 := by
  induction l with
  | nil => simp
  | cons c l ih => simp only [List.map_cons, List.sum_cons, ih]; split_ifs <;> ring

/-- **C37**: for any hierarchy and any number of processes, the reported force of pair `(i, j)` is the integral of
the pair density over the whole domain: with a plus for `j < i`, a minus for `i < j`, and zero for `i = j`. -/
theorem c37_wang_value {ι : Type} (D n : ℕ) (stiffness : ℝ) (ranks : List (List (FPatch ι))) (i j e : ℕ)
    (hi : i < n) (hj : j < n) (he : e < D) :
    pairForces D n (wangUpdates D n) stiffness ranks i j e =
      (if j < i then totalPair stiffness ranks i j e else 0) - if i < j then totalPair stiffness ranks j i e else 0 := by
  unfold pairForces
  have : ∀ patches : List (FPatch ι), patches.foldl (fun a P => applyUpdates (wangUpdates D n P) a) (fun _ => 0)
      (D * (n * i + j) + (1 + e)) = (patches.map fun P =>
        ((if j < i then patchForce P i j e else 0) - if i < j then patchForce P j i e else 0)).sum := by
    intro patches
    rw [foldl_patches (wangUpdates D n) (fun P =>
      ((if j < i then patchForce P i j e else 0) - if i < j then patchForce P j i e else 0)) _
      (fun P f => wang_patch D n P f i j e hi hj he)]
    simp
  simp only [this]
  rw [sum_flatten, list_map_sub]
  unfold totalPair
  split_ifs <;> ring

/-- **C37**: action and reaction, for every pair, direction, hierarchy and number of processes. -/
theorem c37_action_reaction {ι : Type} (D n : ℕ) (stiffness : ℝ) (ranks : List (List (FPatch ι))) (i j e : ℕ)
    (hi : i < n) (hj : j < n) (he : e < D) :
    pairForces D n (wangUpdates D n) stiffness ranks i j e = -pairForces D n (wangUpdates D n) stiffness ranks j i e ∧
      pairForces D n (wangUpdates D n) stiffness ranks i i e = 0 := by
  rw [c37_wang_value D n stiffness ranks i j e hi hj he, c37_wang_value D n stiffness ranks j i e hj hi he,
    c37_wang_value D n stiffness ranks i i e hi hi he]
  constructor
  · ring
  · simp

/-- **C37**: internal forces cancel: the sum over grains of the force fed to the motion is `n` times the external
force. -/
theorem c37_total {ι : Type} (D n : ℕ) (stiffness : ℝ) (ranks : List (List (FPatch ι))) (ext : ℕ → ℝ) (e : ℕ) (he : e < D) :
    ∑ i ∈ Finset.range n, grainForce n ext (pairForces D n (wangUpdates D n) stiffness ranks) i e = n * ext e := by
  unfold grainForce
  rw [Finset.sum_add_distrib]
  simp only [Finset.sum_const, Finset.card_range, nsmul_eq_mul]
  have h : (∑ i ∈ Finset.range n, ∑ j ∈ Finset.range n,
      if j ≠ i then pairForces D n (wangUpdates D n) stiffness ranks i j e else 0) =
      -(∑ i ∈ Finset.range n, ∑ j ∈ Finset.range n,
        if j ≠ i then pairForces D n (wangUpdates D n) stiffness ranks i j e else 0) := by
    conv_lhs => rw [Finset.sum_comm]
    rw [← Finset.sum_neg_distrib]
    refine Finset.sum_congr rfl fun i hi => ?_
    rw [← Finset.sum_neg_distrib]
    refine Finset.sum_congr rfl fun j hj => ?_
    by_cases hij : i = j
    · simp [hij]
    · rw [if_pos hij, if_pos (Ne.symm hij)]
      exact (c37_action_reaction D n stiffness ranks j i e (Finset.mem_range.mp hj) (Finset.mem_range.mp hi) he).1
  linarith

/-- **C37**: the 2D and 3D densities: no force outside contact regions (product of the two order parameters at
most `cthreshold - 0.05`), none where the composition equals the equilibrium value. -/
theorem c37_density_support (dx dy rhoe thr : ℝ) (phi conc : ℕ → Field2) (nc p1 p2 : ℕ) (c : ℤ × ℤ) (d : ℕ)
    (h : phi p1 c.1 c.2 * phi p2 c.1 c.2 ≤ thr - 0.05 ∨ min (∑ ic ∈ Finset.range nc, conc ic c.1 c.2) 1 = rhoe) :
    wangDens2 dx dy rhoe thr phi conc nc p1 p2 c d = 0 := by
  unfold wangDens2
  simp only
  rcases h with h | h
  · rw [if_neg]; intro hp; norm_num at h hp; linarith
  · rw [h]; simp

/-- **C37**: attraction and repulsion: with the composition above equilibrium (overlap) the pair density is along
the difference of the two gradients, i.e. it pushes the grains apart; below it, it pulls them together; the factor
never exceeds one. -/
theorem c37_density_factor (dx dy rhoe thr : ℝ) (phi conc : ℕ → Field2) (nc p1 p2 : ℕ) (c : ℤ × ℤ) (d : ℕ) :
    ∃ k, 0 ≤ k ∧ k ≤ 1 ∧ wangDens2 dx dy rhoe thr phi conc nc p1 p2 c d =
      (min (∑ ic ∈ Finset.range nc, conc ic c.1 c.2) 1 - rhoe) * k *
        ((if d = 0 then (phi p1 (c.1 + 1) c.2 - phi p1 (c.1 - 1) c.2) / (2 * dx)
            else (phi p1 c.1 (c.2 + 1) - phi p1 c.1 (c.2 - 1)) / (2 * dy))
          - if d = 0 then (phi p2 (c.1 + 1) c.2 - phi p2 (c.1 - 1) c.2) / (2 * dx)
            else (phi p2 c.1 (c.2 + 1) - phi p2 c.1 (c.2 - 1)) / (2 * dy)) := by
  by_cases h : 0.5 + (phi p1 c.1 c.2 * phi p2 c.1 c.2 - thr) * 10 > 0
  · set pp := 0.5 + (phi p1 c.1 c.2 * phi p2 c.1 c.2 - thr) * 10 with hpp
    set q := clamp pp with hq
    have hq0 : 0 ≤ q := by rw [hq]; unfold clamp; positivity
    have hq1 : q ≤ 1 := by rw [hq]; unfold clamp; simp
    refine ⟨q * q * q * (10 - 15 * q + 6 * q * q), ?_, ?_, ?_⟩
    · have : 0 ≤ 10 - 15 * q + 6 * q * q := by nlinarith [sq_nonneg (q - 1)]
      positivity
    · nlinarith [mul_nonneg (mul_nonneg hq0 hq0) hq0, pow_nonneg (sub_nonneg.mpr hq1) 3,
        mul_nonneg (pow_nonneg (sub_nonneg.mpr hq1) 3) (mul_nonneg hq0 hq0), mul_nonneg (pow_nonneg (sub_nonneg.mpr hq1) 3) hq0]
    · unfold wangDens2
      simp only [← hpp, if_pos h]
      have : interpFunc 'p' pp = some (q * q * q * (10 - 15 * q + 6 * q * q)) := by
        unfold interpFunc; rw [if_neg (by decide), if_pos rfl]
      rw [this, Option.getD_some]
      by_cases hd : d = 0
      · simp only [hd, if_true]; ring
      · simp only [hd, if_false]; ring
  · exact ⟨0, le_refl _, zero_le_one, by unfold wangDens2; simp only; rw [if_neg h]; ring⟩

/-- **C37** (3D): no force outside contact regions, none where the composition equals the equilibrium value. -/
theorem c37_density_support_3d (dx dy dz rhoe thr : ℝ) (phi conc : ℕ → Field3) (nc p1 p2 : ℕ) (c : ℤ × ℤ × ℤ) (d : ℕ)
    (h : phi p1 c.1 c.2.1 c.2.2 * phi p2 c.1 c.2.1 c.2.2 ≤ thr - 0.05 ∨ min (∑ ic ∈ Finset.range nc, conc ic c.1 c.2.1 c.2.2) 1 = rhoe) :
    wangDens3 dx dy dz rhoe thr phi conc nc p1 p2 c d = 0 := by
  unfold wangDens3
  simp only
  rcases h with h | h
  · rw [if_neg]; intro hp; norm_num at h hp; linarith
  · rw [h]; simp

/-- **C37** (3D): the density is the excess of the composition times the difference of the two gradients times a factor between zero and
one, which is one in full contact (product at least `cthreshold + 0.05`). -/
theorem c37_density_factor_3d (dx dy dz rhoe thr : ℝ) (phi conc : ℕ → Field3) (nc p1 p2 : ℕ) (c : ℤ × ℤ × ℤ) (d : ℕ) :
    ∃ k, 0 ≤ k ∧ k ≤ 1 ∧ (thr + 0.05 ≤ phi p1 c.1 c.2.1 c.2.2 * phi p2 c.1 c.2.1 c.2.2 → k = 1) ∧
      wangDens3 dx dy dz rhoe thr phi conc nc p1 p2 c d =
      (min (∑ ic ∈ Finset.range nc, conc ic c.1 c.2.1 c.2.2) 1 - rhoe) * k *
        ((if d = 0 then (phi p1 (c.1 + 1) c.2.1 c.2.2 - phi p1 (c.1 - 1) c.2.1 c.2.2) / (2 * dx)
            else if d = 1 then (phi p1 c.1 (c.2.1 + 1) c.2.2 - phi p1 c.1 (c.2.1 - 1) c.2.2) / (2 * dy)
            else (phi p1 c.1 c.2.1 (c.2.2 + 1) - phi p1 c.1 c.2.1 (c.2.2 - 1)) / (2 * dz))
          - if d = 0 then (phi p2 (c.1 + 1) c.2.1 c.2.2 - phi p2 (c.1 - 1) c.2.1 c.2.2) / (2 * dx)
            else if d = 1 then (phi p2 c.1 (c.2.1 + 1) c.2.2 - phi p2 c.1 (c.2.1 - 1) c.2.2) / (2 * dy)
            else (phi p2 c.1 c.2.1 (c.2.2 + 1) - phi p2 c.1 c.2.1 (c.2.2 - 1)) / (2 * dz)) := by
  by_cases h : 0.5 + (phi p1 c.1 c.2.1 c.2.2 * phi p2 c.1 c.2.1 c.2.2 - thr) * 10 > 0
  · set pp := 0.5 + (phi p1 c.1 c.2.1 c.2.2 * phi p2 c.1 c.2.1 c.2.2 - thr) * 10 with hpp
    set q := clamp pp with hq
    have hq0 : 0 ≤ q := by rw [hq]; unfold clamp; positivity
    have hq1 : q ≤ 1 := by rw [hq]; unfold clamp; simp
    refine ⟨q * q * q * (10 - 15 * q + 6 * q * q), ?_, ?_, ?_, ?_⟩
    · have : 0 ≤ 10 - 15 * q + 6 * q * q := by nlinarith [sq_nonneg (q - 1)]
      positivity
    · nlinarith [mul_nonneg (mul_nonneg hq0 hq0) hq0, pow_nonneg (sub_nonneg.mpr hq1) 3,
        mul_nonneg (pow_nonneg (sub_nonneg.mpr hq1) 3) (mul_nonneg hq0 hq0), mul_nonneg (pow_nonneg (sub_nonneg.mpr hq1) 3) hq0]
    · intro hc
      have : q = 1 := by
        rw [hq]; unfold clamp
        rw [min_eq_left (by rw [hpp]; norm_num at hc ⊢; linarith), max_eq_right zero_le_one]
      rw [this]; norm_num
    · unfold wangDens3
      simp only [← hpp, if_pos h]
      have : interpFunc 'p' pp = some (q * q * q * (10 - 15 * q + 6 * q * q)) := by
        unfold interpFunc; rw [if_neg (by decide), if_pos rfl]
      rw [this, Option.getD_some]
      by_cases hd : d = 0
      · simp only [hd, if_true]; ring
      · by_cases hd1 : d = 1
        · simp only [hd1, if_true, one_ne_zero, if_false]; ring
        · simp only [hd, hd1, if_false]; ring
  · refine ⟨0, le_refl _, zero_le_one, fun hc => ?_, by unfold wangDens3; simp only; rw [if_neg h]; ring⟩
    exfalso; apply h; norm_num at hc ⊢; linarith

/-! ### The Moelans-type forces -/

/-- What the 2D `phiphi_forces` puts in the slot read for `(i, j, e)`: the right slot. -/
theorem phiphi2_patch {ι : Type} (n : ℕ) (P : FPatch ι) (f : ℕ → ℝ) (i j e : ℕ) (hi : i < n) (hj : j < n) (he : e < 2) :
    applyUpdates (phiphiUpdates2 n P) f (2 * (n * i + j) + (1 + e)) = f (2 * (n * i + j) + (1 + e)) +
      if i = j then 0 else patchForce P i j e := by
  rw [applyUpdates_eq]
  congr 1
  unfold phiphiUpdates2
  rw [map_flatMap_sum, list_range_sum]
  have inner : ∀ a ∈ Finset.range n, (((List.range n).flatMap fun b => if a = b then [] else
      P.cells.flatMap fun c => (List.range 2).map fun d =>
        (2 * n * a + (b + 1) * 2 - 1 + d, P.dens a b c d * P.weight c)).map
      fun u : ℕ × ℝ => if 2 * (n * i + j) + (1 + e) = u.1 then u.2 else 0).sum =
      ∑ b ∈ Finset.range n, if a = b then 0 else if i = a ∧ j = b then patchForce P a b e else 0 := by
    intro a ha
    rw [map_flatMap_sum, list_range_sum]
    refine Finset.sum_congr rfl fun b hb => ?_
    have hb' := Finset.mem_range.mp hb
    by_cases hab : a = b
    · simp [hab]
    · rw [if_neg hab, if_neg hab, map_flatMap_sum]
      have cell : ∀ c, (((List.range 2).map fun d => (2 * n * a + (b + 1) * 2 - 1 + d, P.dens a b c d * P.weight c)).map
          fun u : ℕ × ℝ => if 2 * (n * i + j) + (1 + e) = u.1 then u.2 else 0).sum =
          (if i = a ∧ j = b then P.dens a b c e * P.weight c else 0) + if False then 0 else 0 := by
        intro c
        rw [List.map_map]
        simp only [Function.comp_def]
        have s : ∀ d, 2 * n * a + (b + 1) * 2 - 1 + d = 2 * (n * a + b) + (1 + d) := fun d => by
          have : 2 * n * a = 2 * (n * a) := by ring
          lia
        simp only [s]
        rw [list_range_sum, slot_sum hb' hj he]
        simp
      simp only [cell]
      rw [list_ite_sum]
      simp [patchForce]
  rw [Finset.sum_congr rfl inner, Finset.sum_eq_single i]
  · rw [Finset.sum_eq_single j]
    · simp
    · intro b _ hb; split_ifs <;> tauto
    · intro h; exact absurd (Finset.mem_range.mpr hj) h
  · intro a _ ha; refine Finset.sum_eq_zero fun b _ => ?_; split_ifs <;> tauto
  · intro h; exact absurd (Finset.mem_range.mpr hi) h

/-- **C37** (violation, Moelans-type forces, 2D): the two forces of a pair on a patch do not cancel; their sum is
this discrete product-rule defect. -/
theorem c37_violation_phiphi_2d (n : ℕ) (dx dy gamma m : ℝ) (phi : ℕ → Field2) (cells : List (ℤ × ℤ))
    (w : ℤ × ℤ → ℝ) (i j : ℕ) (hi : i < n) (hj : j < n) (hij : i ≠ j) :
    let P : FPatch (ℤ × ℤ) := ⟨cells, phiphiDens2 dx dy gamma m phi, w⟩
    pairForces 2 n (phiphiUpdates2 n) 1 [[P]] i j 0 + pairForces 2 n (phiphiUpdates2 n) 1 [[P]] j i 0 =
      0.5 * gamma * m / dx * (cells.map fun c => phi i c.1 c.2 * phi j c.1 c.2 *
        (phi i c.1 c.2 * (phi j (c.1 + 1) c.2 - phi j (c.1 - 1) c.2)
          + phi j c.1 c.2 * (phi i (c.1 + 1) c.2 - phi i (c.1 - 1) c.2)) * w c).sum := by
  intro P
  unfold pairForces
  simp only [List.map_cons, List.map_nil, List.sum_cons, List.sum_nil, List.foldl_cons, List.foldl_nil]
  rw [phiphi2_patch n P _ i j 0 hi hj (by norm_num), phiphi2_patch n P _ j i 0 hj hi (by norm_num)]
  rw [if_neg hij, if_neg (Ne.symm hij)]
  simp only [patchForce, P, phiphiDens2]
  clear P
  induction cells with
  | nil => simp
  | cons c l ih =>
    simp only [List.map_cons, List.sum_cons] at ih ⊢
    simp only [if_true, zero_add, mul_one, add_zero] at ih ⊢
    linear_combination ih

/-- The defect is really there: two cells in contact, unit weights. -/
example : pairForces 2 2 (phiphiUpdates2 2) 1 [[⟨[(0, 0)], phiphiDens2 1 1 2 1 (fun p i _ =>
      if p = 0 then 1 else (i : ℝ) + 1), fun _ => 1⟩]] 0 1 0
    + pairForces 2 2 (phiphiUpdates2 2) 1 [[⟨[(0, 0)], phiphiDens2 1 1 2 1 (fun p i _ =>
      if p = 0 then 1 else (i : ℝ) + 1), fun _ => 1⟩]] 1 0 0 = 2 := by
  have := c37_violation_phiphi_2d 2 1 1 2 1 (fun p i _ => if p = 0 then 1 else (i : ℝ) + 1) [(0, 0)] (fun _ => 1) 0 1
    (by norm_num) (by norm_num) (by norm_num)
  simp only at this
  rw [this]
  simp
  norm_num

/-- **C37** (violation, 3D): for two grains the 3D routine writes with stride 2 into an array read with stride 3:
the "force of grain 0 on itself" in z is the x-force of the pair, the pair's x, y, z components read back as its
y, z and zero, and cell weights are not applied. -/
theorem c37_violation_phiphi_3d {ι : Type} (P : FPatch ι) (s : ℝ) :
    let F := pairForces 3 2 (phiphiUpdates3 2) s [[P]]
    let raw := fun d => (P.cells.map fun c => P.dens 0 1 c d).sum
    F 0 0 2 = raw 0 * s ∧ F 0 1 0 = raw 1 * s ∧ F 0 1 1 = raw 2 * s ∧ F 0 1 2 = 0 ∧ F 0 0 0 = 0 ∧ F 0 0 1 = 0 := by
  have key : ∀ k, applyUpdates (phiphiUpdates3 2 P) (fun _ => 0) k =
      (P.cells.map fun c => ((if k = 3 then P.dens 0 1 c 0 else 0) + (if k = 4 then P.dens 0 1 c 1 else 0)
        + if k = 5 then P.dens 0 1 c 2 else 0)).sum
      + (P.cells.map fun c => ((if k = 7 then P.dens 1 0 c 0 else 0) + (if k = 8 then P.dens 1 0 c 1 else 0)
        + if k = 9 then P.dens 1 0 c 2 else 0)).sum := by
    intro k
    rw [applyUpdates_eq]
    unfold phiphiUpdates3
    simp only [List.range_succ, List.range_zero, List.nil_append, List.flatMap_cons, List.flatMap_nil, List.append_nil,
      List.cons_append, if_true, zero_ne_one, one_ne_zero, if_false, List.map_append, List.sum_append]
    rw [map_flatMap_sum, map_flatMap_sum]
    simp [add_assoc]
  intro F raw
  simp only [F, raw, pairForces, List.map_cons, List.map_nil, List.sum_cons, List.sum_nil, List.foldl_cons, List.foldl_nil, key]
  refine ⟨?_, ?_, ?_, ?_, ?_, ?_⟩ <;> simp

theorem foldlM_none {α : Type} (f : ℝ → α → Option ℝ) (x : α) (h : ∀ acc, f acc x = none) (l : List α) (hx : x ∈ l)
    (a : ℝ) : l.foldlM f a = none := by
  induction l generalizing a with
  | nil => simp at hx
  | cons y l ih =>
    rw [List.foldlM_cons]
    rcases List.mem_cons.mp hx with rfl | hx'
    · rw [h]; rfl
    · cases e : f a y with
      | none => rfl
      | some b => exact ih hx' b

theorem foldlM_some {α : Type} (f : ℝ → α → Option ℝ) (g : ℝ → α → ℝ) (l : List α) (h : ∀ acc, ∀ x ∈ l, f acc x = some (g acc x))
    (a : ℝ) : l.foldlM f a = some (l.foldl g a) := by
  induction l generalizing a with
  | nil => rfl
  | cons y l ih =>
    rw [List.foldlM_cons, h a y (by simp), List.foldl_cons]
    exact ih (fun acc x hx => h acc x (by simp [hx])) (g a y)

theorem mapM_none {α β : Type} (f : α → Option β) (x : α) (h : f x = none) (l : List α) (hx : x ∈ l) : l.mapM f = none := by
  induction l with
  | nil => simp at hx
  | cons y l ih =>
    rw [List.mapM_cons]
    rcases List.mem_cons.mp hx with rfl | hx'
    · rw [h]; rfl
    · cases e : f y with
      | none => rfl
      | some b => rw [ih hx']; rfl

theorem mapM_some {α β : Type} (f : α → Option β) (g : α → β) (l : List α) (h : ∀ x ∈ l, f x = some (g x)) :
    l.mapM f = some (l.map g) := by
  induction l with
  | nil => rfl
  | cons y l ih =>
    rw [List.mapM_cons, h y (by simp), ih fun x hx => h x (by simp [hx])]
    rfl

theorem foldl_add {α : Type} (l : List α) (g : α → ℝ) (a : ℝ) : l.foldl (fun acc x => acc + g x) a = a + (l.map g).sum := by
  induction l generalizing a with
  | nil => simp
  | cons y l ih => rw [List.foldl_cons, ih]; simp only [List.map_cons, List.sum_cons]; ring

/-- **C37** (violation): as soon as there is a second solid phase, the loop summing the forces reads outside the
force table; with none it never does, and computes the sum of the forces of all other grains. -/
theorem c37_violation_second_phase (nA nB : ℕ) (ext : ℕ → ℝ) (F : ℕ → ℕ → ℕ → ℝ) (d : ℕ) (hA : 0 < nA) :
    (0 < nB → grainForceChecked nA nB (nA + nB + 1) ext F d = none) ∧
    (nB = 0 → grainForceChecked nA nB (nA + nB + 1) ext F d =
      some ((List.range nA).map fun i => grainForce nA ext F i d)) := by
  constructor
  · intro hB
    unfold grainForceChecked
    refine mapM_none _ 0 ?_ _ (List.mem_range.mpr (by lia))
    refine foldlM_none _ nA (fun acc => ?_) _ (List.mem_range.mpr (by lia)) _
    rw [if_pos (by lia), if_neg (by lia)]
  · rintro rfl
    unfold grainForceChecked
    have e : nA + 0 + 1 - 1 = nA := by lia
    rw [e]
    refine mapM_some _ _ _ fun i hi => ?_
    have hi' := List.mem_range.mp hi
    rw [foldlM_some _ (fun acc j => acc + if j ≠ i then F i j d else 0) _ ?_, foldl_add]
    · rw [list_range_sum]; rfl
    · intro acc j hj
      have hj' := List.mem_range.mp hj
      by_cases h : j ≠ i
      · rw [if_pos h, if_pos ⟨hi', by lia, by lia⟩, if_pos h]
      · rw [if_neg h, if_neg h, add_zero]

/-! ## C38 -/

/-- Specification: the pair energy of one patch. -/
noncomputable def patchEnergy {ι : Type} (gamma m : ℝ) (P : EPatch ι) (i j : ℕ) : ℝ :=
  (P.cells.map fun c => 0.5 * gamma * m * (P.phi i c ^ 2 * P.phi j c ^ 2) * P.weight c).sum

theorem fold_hit {α : Type} (L : List α) (step : (ℕ → ℝ) → α → ℕ → ℝ) (k : ℕ) (v : ℝ)
    (hit : ∀ x ∈ L, ∀ t, step t x k = v ∨ step t x k = t k) (t : ℕ → ℝ)
    (h : t k = v ∨ ∃ x ∈ L, ∀ t, step t x k = v) : L.foldl step t k = v := by
  induction L generalizing t with
  | nil => rcases h with h | ⟨x, hx, _⟩
           · exact h
           · simp at hx
  | cons y L ih =>
    rw [List.foldl_cons]
    refine ih (fun x hx => hit x (by simp [hx])) _ ?_
    rcases h with h | ⟨x, hx, hv⟩
    · left
      rcases hit y (by simp) t with h' | h' <;> rw [h']
      exact h
    · rcases List.mem_cons.mp hx with rfl | hx'
      · left; exact hv t
      · exact Or.inr ⟨x, hx', hv⟩

theorem fold_miss {α : Type} (L : List α) (step : (ℕ → ℝ) → α → ℕ → ℝ) (k : ℕ)
    (miss : ∀ x ∈ L, ∀ t, step t x k = t k) (t : ℕ → ℝ) : L.foldl step t k = t k := by
  induction L generalizing t with
  | nil => rfl
  | cons y L ih => rw [List.foldl_cons, ih (fun x hx => miss x (by simp [hx])), miss y (by simp)]

theorem cells_fold {ι : Type} (L : List ι) (k s : ℕ) (g : ι → ℝ) (t : ℕ → ℝ) :
    L.foldl (fun (t : ℕ → ℝ) c => fun k => if k = s then t k + g c else t k) t k =
      if k = s then t k + (L.map g).sum else t k := by
  induction L generalizing t with
  | nil => simp
  | cons c L ih => rw [List.foldl_cons, ih]; simp only [List.map_cons, List.sum_cons]; split_ifs <;> ring

/-- One patch: whatever the array held, afterwards the slot of pair `(i, j)` holds this patch's energy alone. -/
theorem patch_overwrites {ι : Type} (n : ℕ) (gamma m : ℝ) (P : EPatch ι) (t : ℕ → ℝ) (i j : ℕ) (hi : i < n) (hj : j < n) :
    pairEnergyPatch n gamma m P t (n * i + (j + 1)) = patchEnergy gamma m P i j := by
  have inj : ∀ a b, b < n → (n * i + (j + 1) = n * a + (b + 1) ↔ a = i ∧ b = j) := by
    intro a b hb
    have := slot_inj (D := 1) (n := n) (a := a) (b := b) (d := 0) (i := i) (j := j) (e := 0) hb (by norm_num) hj (by norm_num)
    simp only [one_mul, add_zero, and_true] at this
    rw [← this]
    constructor <;> intro h <;> lia
  have val : ∀ a b (t : ℕ → ℝ), P.cells.foldl (fun (t : ℕ → ℝ) c => fun k => if k = n * a + (b + 1) then
        t k + P.phi a c * P.phi a c * P.phi b c * P.phi b c * (0.5 * gamma * m) * P.weight c else t k)
      (fun k => if k = n * a + (b + 1) then 0 else t k) (n * i + (j + 1)) =
      if n * i + (j + 1) = n * a + (b + 1) then patchEnergy gamma m P a b else t (n * i + (j + 1)) := by
    intro a b t
    rw [cells_fold]
    by_cases h : n * i + (j + 1) = n * a + (b + 1)
    · simp only [if_pos h, zero_add]
      unfold patchEnergy
      congr 1
      refine List.map_congr_left fun c _ => ?_
      ring
    · simp only [if_neg h]
  unfold pairEnergyPatch
  refine fold_hit _ _ _ _ (fun a ha t => ?_) _ (Or.inr ⟨i, List.mem_range.mpr hi, fun t => ?_⟩)
  · by_cases h : a = i
    · left
      subst h
      refine fold_hit _ _ _ _ (fun b hb t => ?_) _ (Or.inr ⟨j, List.mem_range.mpr hj, fun t => ?_⟩)
      · rw [val]
        by_cases hbj : b = j
        · left; subst hbj; simp
        · right; rw [if_neg]; rw [inj a b (List.mem_range.mp hb)]; tauto
      · rw [val, if_pos rfl]
    · right
      refine fold_miss _ _ _ (fun b hb t => ?_) _
      rw [val, if_neg]
      rw [inj a b (List.mem_range.mp hb)]; tauto
  · refine fold_hit _ _ _ _ (fun b hb t => ?_) _ (Or.inr ⟨j, List.mem_range.mpr hj, fun t => ?_⟩)
    · rw [val]
      by_cases hbj : b = j
      · left; subst hbj; simp
      · right; rw [if_neg]; rw [inj i b (List.mem_range.mp hb)]; tauto
    · rw [val, if_pos rfl]

/-- Specification: the pair energy summed over every patch of every process. -/
noncomputable def domainEnergy {ι : Type} (gamma m : ℝ) (ranks : List (List (EPatch ι))) (i j : ℕ) : ℝ :=
  (ranks.flatten.map fun P => patchEnergy gamma m P i j).sum

/-- **C38** (violation): for every hierarchy and number of processes, the reported energy of a pair is that of the
*last* patch of each process. -/
theorem c38_violation_last_patch {ι : Type} (n : ℕ) (gamma m : ℝ) (ranks : List (List (EPatch ι))) (i j : ℕ)
    (hi : i < n) (hj : j < n) :
    pairEnergy n gamma m ranks (n * i + (j + 1)) =
      (ranks.map fun patches => (patches.getLast?.map fun P => patchEnergy gamma m P i j).getD 0).sum := by
  unfold pairEnergy
  congr 1
  refine List.map_congr_left fun patches _ => ?_
  rcases List.eq_nil_or_concat patches with rfl | ⟨l, P, rfl⟩
  · simp
  · rw [List.concat_eq_append, List.foldl_append, List.foldl_cons, List.foldl_nil, patch_overwrites n gamma m P _ i j hi hj]
    simp

/-- **C38** (violation): the energy lost is exactly that of all other patches. -/
theorem c38_violation_lost {ι : Type} (n : ℕ) (gamma m : ℝ) (ranks : List (List (EPatch ι))) (i j : ℕ)
    (hi : i < n) (hj : j < n) :
    domainEnergy gamma m ranks i j - pairEnergy n gamma m ranks (n * i + (j + 1)) =
      domainEnergy gamma m (ranks.map List.dropLast) i j := by
  rw [c38_violation_last_patch n gamma m ranks i j hi hj]
  unfold domainEnergy
  induction ranks with
  | nil => simp
  | cons l L ih =>
    simp only [List.map_cons, List.sum_cons, List.flatten_cons, List.map_append, List.sum_append] at ih ⊢
    have : (l.map fun P => patchEnergy gamma m P i j).sum - (l.getLast?.map fun P => patchEnergy gamma m P i j).getD 0 =
        (l.dropLast.map fun P => patchEnergy gamma m P i j).sum := by
      rcases List.eq_nil_or_concat l with rfl | ⟨l', P, rfl⟩
      · simp
      · rw [List.concat_eq_append]; simp
    linarith

theorem patchEnergy_nonneg {ι : Type} (gamma m : ℝ) (hg : 0 ≤ gamma * m) (P : EPatch ι) (hw : ∀ c ∈ P.cells, 0 ≤ P.weight c)
    (i j : ℕ) : 0 ≤ patchEnergy gamma m P i j := by
  unfold patchEnergy
  refine List.sum_nonneg fun x hx => ?_
  obtain ⟨c, hc, rfl⟩ := List.mem_map.mp hx
  have := hw c hc
  have h : 0.5 * gamma * m * (P.phi i c ^ 2 * P.phi j c ^ 2) * P.weight c =
    0.5 * (gamma * m) * (P.phi i c ^ 2 * P.phi j c ^ 2) * P.weight c := by ring
  rw [h]
  positivity

/-- **C38** (violation): the report never exceeds the domain energy, and falls short as soon as one patch that is
not the last of its process carries energy. -/
theorem c38_violation_underestimates {ι : Type} (n : ℕ) (gamma m : ℝ) (hg : 0 ≤ gamma * m) (ranks : List (List (EPatch ι)))
    (hw : ∀ P ∈ ranks.flatten, ∀ c ∈ P.cells, 0 ≤ P.weight c) (i j : ℕ) (hi : i < n) (hj : j < n) :
    pairEnergy n gamma m ranks (n * i + (j + 1)) ≤ domainEnergy gamma m ranks i j ∧
    ((∃ l ∈ ranks, ∃ P ∈ l.dropLast, 0 < patchEnergy gamma m P i j) →
      pairEnergy n gamma m ranks (n * i + (j + 1)) < domainEnergy gamma m ranks i j) := by
  have lost := c38_violation_lost n gamma m ranks i j hi hj
  have hsub : ∀ P ∈ (ranks.map List.dropLast).flatten, 0 ≤ patchEnergy gamma m P i j := by
    intro P hP
    obtain ⟨l, hl, hPl⟩ := List.mem_flatten.mp hP
    obtain ⟨l0, hl0, rfl⟩ := List.mem_map.mp hl
    exact patchEnergy_nonneg gamma m hg P (hw P (List.mem_flatten.mpr ⟨l0, hl0, List.dropLast_subset _ hPl⟩)) i j
  have h0 : 0 ≤ domainEnergy gamma m (ranks.map List.dropLast) i j := by
    unfold domainEnergy
    refine List.sum_nonneg fun x hx => ?_
    obtain ⟨P, hP, rfl⟩ := List.mem_map.mp hx
    exact hsub P hP
  refine ⟨by linarith, ?_⟩
  rintro ⟨l, hl, P, hP, hpos⟩
  have : 0 < domainEnergy gamma m (ranks.map List.dropLast) i j := by
    unfold domainEnergy
    have hm : P ∈ (ranks.map List.dropLast).flatten := List.mem_flatten.mpr ⟨l.dropLast, List.mem_map.mpr ⟨l, hl, rfl⟩, hP⟩
    obtain ⟨l1, l2, e⟩ := List.append_of_mem hm
    rw [e] at hsub ⊢
    simp only [List.map_append, List.map_cons, List.sum_append, List.sum_cons]
    have a1 : 0 ≤ (l1.map fun P => patchEnergy gamma m P i j).sum := List.sum_nonneg fun x hx => by
      obtain ⟨Q, hQ, rfl⟩ := List.mem_map.mp hx; exact hsub Q (by simp [hQ])
    have a2 : 0 ≤ (l2.map fun P => patchEnergy gamma m P i j).sum := List.sum_nonneg fun x hx => by
      obtain ⟨Q, hQ, rfl⟩ := List.mem_map.mp hx; exact hsub Q (by simp [hQ])
    linarith
  linarith

/-- **C38** (partial): with at most one patch per process the report is the domain energy. Missing: any process
holding more than one patch. -/
theorem c38_one_patch_partial {ι : Type} (n : ℕ) (gamma m : ℝ) (ranks : List (List (EPatch ι))) (i j : ℕ)
    (hi : i < n) (hj : j < n) (h1 : ∀ l ∈ ranks, l.length ≤ 1) :
    pairEnergy n gamma m ranks (n * i + (j + 1)) = domainEnergy gamma m ranks i j := by
  have lost := c38_violation_lost n gamma m ranks i j hi hj
  have : (ranks.map List.dropLast).flatten = [] := by
    rw [List.flatten_eq_nil_iff]
    intro l hl
    obtain ⟨l0, hl0, rfl⟩ := List.mem_map.mp hl
    have := h1 l0 hl0
    exact List.eq_nil_of_length_eq_zero (by rw [List.length_dropLast]; lia)
  have h0 : domainEnergy gamma m (ranks.map List.dropLast) i j = 0 := by unfold domainEnergy; rw [this]; simp
  linarith

/-- **C38**: pair energies are symmetric. -/
theorem c38_symmetric {ι : Type} (n : ℕ) (gamma m : ℝ) (ranks : List (List (EPatch ι))) (i j : ℕ) (hi : i < n) (hj : j < n) :
    pairEnergy n gamma m ranks (n * i + (j + 1)) = pairEnergy n gamma m ranks (n * j + (i + 1)) := by
  rw [c38_violation_last_patch n gamma m ranks i j hi hj, c38_violation_last_patch n gamma m ranks j i hj hi]
  have : ∀ P : EPatch ι, patchEnergy gamma m P i j = patchEnergy gamma m P j i := by
    intro P
    unfold patchEnergy
    congr 1
    exact List.map_congr_left fun c _ => by ring
  simp only [this]

/-- **C38** (violation): the per-cell energy output keeps only the last pair, the last grain with itself. -/
theorem c38_violation_density {ι : Type} (n : ℕ) (gamma m : ℝ) (P : EPatch ι) (c : ι) :
    pairEnergyCell (n + 1) gamma m P c = 0.5 * gamma * m * P.phi n c ^ 4 := by
  unfold pairEnergyCell
  simp only [List.range_succ, List.foldl_append, List.foldl_cons, List.foldl_nil]
  ring

/-- Non-trivial instance: two patches on one process, one order parameter equal to 1 everywhere. -/
example : pairEnergy 1 2 1 [[⟨[()], fun _ _ => 1, fun _ => 1⟩, ⟨[()], fun _ _ => 1, fun _ => 1⟩]] 1 = 1 ∧
    domainEnergy 2 1 [[⟨[()], fun _ _ => 1, fun _ => 1⟩, (⟨[()], fun _ _ => 1, fun _ => 1⟩ : EPatch Unit)]] 0 0 = 2 := by
  constructor
  · have := c38_violation_last_patch 1 2 1 [[⟨[()], fun _ _ => 1, fun _ => 1⟩, (⟨[()], fun _ _ => 1, fun _ => 1⟩ : EPatch Unit)]]
      0 0 (by norm_num) (by norm_num)
    simp only [mul_zero, zero_add] at this
    rw [this]
    norm_num [patchEnergy]
  · norm_num [domainEnergy, patchEnergy]

/-! ## C57: rigid-body motion -/

/-- **C57**: without external force the volume-weighted velocities add up to zero; with one they add up to the
mobility times the total external force. -/
theorem c57_momentum {ι : Type} (D n : ℕ) (stiffness mobility : ℝ) (ranks : List (List (FPatch ι))) (ext : ℕ → ℝ) (e : ℕ)
    (he : e < D) (vol : ℕ → ℝ) (hv : ∀ i < n, vol i ≠ 0) :
    ∑ i ∈ Finset.range n, vol i * velocity mobility (vol i)
        (grainForce n ext (pairForces D n (wangUpdates D n) stiffness ranks) i e) = mobility * (n * ext e) := by
  rw [← c37_total D n stiffness ranks ext e he, Finset.mul_sum]
  refine Finset.sum_congr rfl fun i hi => ?_
  have := hv i (Finset.mem_range.mp hi)
  unfold velocity
  field_simp

/-- **C57**: the composition moves with the grains: what is added to its rate is the sum of what is added to the
rates of the order parameters, so a composition equal to their sum stays so. -/
theorem c57_composition_follows (n : ℕ) (dx dy : ℝ) (v : ℕ → ℕ → ℝ) (phi : ℕ → Field2) (rhs : ℝ) (i j : ℤ) :
    rbMotionConc2 n dx dy v phi rhs i j =
      rhs + ∑ g ∈ Finset.range n, rbMotion2 dx dy (v g 0) (v g 1) (phi g) i j := by
  unfold rbMotionConc2
  rw [foldl_add, list_range_sum]

/-- **C57**: the term is minus velocity times gradient, exactly for quadratic profiles. -/
theorem c57_advects (dx dy v0 v1 a b c d e f : ℝ) (hx : dx ≠ 0) (hy : dy ≠ 0) (i j : ℤ) :
    rbMotion2 dx dy v0 v1 (fun i j => a + b * (i * dx) + c * (j * dy) + d * (i * dx) ^ 2 + e * (i * dx) * (j * dy)
        + f * (j * dy) ^ 2) i j =
      -(v0 * (b + 2 * d * (i * dx) + e * (j * dy)) + v1 * (c + e * (i * dx) + 2 * f * (j * dy))) := by
  unfold rbMotion2
  push_cast
  field_simp
  ring

/-- **C57**: moving a grain on a periodic grid neither creates nor destroys it. -/
theorem c57_conserves (N M : ℕ) (lo0 lo1 : ℤ) (dx dy v0 v1 : ℝ) (u : Field2) (hu : ∀ i j, u (i + N) j = u i j)
    (hu' : ∀ i j, u i (j + M) = u i j) :
    ∑ b ∈ Finset.range M, ∑ a ∈ Finset.range N, rbMotion2 dx dy v0 v1 u (lo0 + a) (lo1 + b) = 0 := by
  have h1 : ∀ b : ℕ, ∑ a ∈ Finset.range N, (u (lo0 + a + 1) (lo1 + b) - u (lo0 + a - 1) (lo1 + b)) = 0 := fun b => by
    have p := AMPE.PhaseRHS.Props.sum_shift N lo0 (fun i => u i (lo1 + b)) (fun i => hu i _) 1
    have m := AMPE.PhaseRHS.Props.sum_shift_neg N lo0 (fun i => u i (lo1 + b)) (fun i => hu i _) 1
    simp only [Nat.cast_one] at p m
    rw [Finset.sum_sub_distrib, p, m, sub_self]
  have h2 : ∀ a : ℕ, ∑ b ∈ Finset.range M, (u (lo0 + a) (lo1 + b + 1) - u (lo0 + a) (lo1 + b - 1)) = 0 := fun a => by
    have p := AMPE.PhaseRHS.Props.sum_shift M lo1 (fun j => u (lo0 + a) j) (fun j => hu' _ j) 1
    have m := AMPE.PhaseRHS.Props.sum_shift_neg M lo1 (fun j => u (lo0 + a) j) (fun j => hu' _ j) 1
    simp only [Nat.cast_one] at p m
    rw [Finset.sum_sub_distrib, p, m, sub_self]
  simp only [rbMotion2, zero_sub, Finset.sum_sub_distrib, ← Finset.mul_sum, Finset.sum_neg_distrib]
  have e1 : ∑ b ∈ Finset.range M, (∑ a ∈ Finset.range N, u (lo0 + a + 1) (lo1 + b)
      - ∑ a ∈ Finset.range N, u (lo0 + a - 1) (lo1 + b)) = 0 :=
    Finset.sum_eq_zero fun b _ => by rw [← Finset.sum_sub_distrib]; exact h1 b
  have e2 : ∑ b ∈ Finset.range M, (∑ a ∈ Finset.range N, u (lo0 + a) (lo1 + b + 1)
      - ∑ a ∈ Finset.range N, u (lo0 + a) (lo1 + b - 1)) = 0 := by
    have : ∀ b ∈ Finset.range M, (∑ a ∈ Finset.range N, u (lo0 + a) (lo1 + b + 1)
      - ∑ a ∈ Finset.range N, u (lo0 + a) (lo1 + b - 1)) =
      ∑ a ∈ Finset.range N, (u (lo0 + a) (lo1 + b + 1) - u (lo0 + a) (lo1 + b - 1)) := fun b _ => by
        rw [Finset.sum_sub_distrib]
    rw [Finset.sum_congr rfl this, Finset.sum_comm]
    exact Finset.sum_eq_zero fun a _ => h2 a
  simp only [Finset.sum_sub_distrib] at e1 e2
  linear_combination (-(0.5 * v0 / dx)) * e1 - (0.5 * v1 / dy) * e2

end AMPE.RigidBody.Props
