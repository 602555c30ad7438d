import Verif.Model.FieldsFile
import Mathlib.Algebra.BigOperators.Ring.Finset
import Mathlib.Tactic.Linarith
import Mathlib.Tactic.Ring
import Mathlib.Tactic.NormNum
import Mathlib.Tactic.FieldSimp
import Mathlib.Tactic.IntervalCases
import Mathlib.Tactic.LinearCombination
import Mathlib.Algebra.Order.Floor.Ring

/-!
# C86: a run started from a saved initial-conditions file starts from the saved state
-/

namespace AMPE.FieldsFile.Props

open AMPE.FieldsFile

/-! ## Specification -/

/-- The state to be saved: every component in every cell. -/
abbrev State := Sel → ℤ → ℤ → ℤ → ℝ

/-- The cell lies in the domain `Nx × Ny × Nz` with lower corner 0. -/
def InDomain (Nz Ny Nx : ℕ) (x y z : ℤ) : Prop := 0 ≤ x ∧ x < Nx ∧ 0 ≤ y ∧ y < Ny ∧ 0 ≤ z ∧ z < Nz

/-- The box lies in the domain. -/
def Inside (Nz Ny Nx : ℕ) (b : Box) : Prop :=
  0 ≤ b.x0 ∧ b.x0 + b.nx ≤ Nx ∧ 0 ≤ b.y0 ∧ b.y0 + b.ny ≤ Ny ∧ 0 ≤ b.z0 ∧ b.z0 + b.nz ≤ Nz

/-- The arrays of the patch hold the state, x fastest, then y, then z. -/
def Holds (F : State) (p : Patch) : Prop :=
  ∀ s (ix iy iz : ℕ), ix < p.box.nx → iy < p.box.ny → iz < p.box.nz →
    p.mem s (ix + p.box.nx * (iy + p.box.ny * iz)) = F s (p.box.x0 + ix) (p.box.y0 + iy) (p.box.z0 + iz)

/-- Patches that lie in the domain, cover it and hold the state. -/
structure Layout (Nz Ny Nx : ℕ) (F : State) (patches : List Patch) : Prop where
  inside : ∀ p ∈ patches, Inside Nz Ny Nx p.box
  holds : ∀ p ∈ patches, Holds F p
  covers : ∀ x y z, InDomain Nz Ny Nx x y z → ∃ p ∈ patches, p.box.has x y z

/-- Compositions in `[0, 1]`. -/
def Physical (ncomp Nz Ny Nx : ℕ) (F : State) : Prop :=
  ∀ d < ncomp, ∀ x y z, InDomain Nz Ny Nx x y z → 0 ≤ F (Sel.conc d) x y z ∧ F (Sel.conc d) x y z ≤ 1

/-- Rounding to the 4-byte type: idempotent and monotone with 0 and 1 represented. -/
structure Rounds (fl : ℝ → ℝ) : Prop where
  idem : ∀ x, fl (fl x) = fl x
  unit : ∀ x, 0 ≤ x → x ≤ 1 → 0 ≤ fl x ∧ fl x ≤ 1

/-- Which order parameter of the state is stored under the name the reader uses for its `d`-th. -/
def stored (P : Params) : Sel → Sel
  | Sel.phase d => Sel.phase (if P.three then d else 0)
  | s => s

/-! ## Writing -/

theorem nodup_vars (P : Params) : ((vars P).map Prod.fst).Nodup := by
  have hq : (((List.range P.qlen).map (fun ii => ((Base.quat, some (ii + 1)), Sel.quat ii))).map Prod.fst :
      List Name).Nodup := by
    rw [List.map_map]
    refine List.Nodup.map ?_ List.nodup_range
    intro a b h
    simpa using h
  have hc : (((List.range P.ncomp).map (fun ii => (concName P.ncomp ii, Sel.conc ii))).map Prod.fst :
      List Name).Nodup := by
    rw [List.map_map]
    by_cases h1 : P.ncomp > 1
    · refine List.Nodup.map ?_ List.nodup_range
      intro a b h
      simpa [concName, h1] using h
    · have : P.ncomp = 0 ∨ P.ncomp = 1 := by omega
      rcases this with h | h <;> rw [h] <;> simp
  unfold vars
  simp only [List.map_append]
  rw [List.nodup_append, List.nodup_append, List.nodup_append]
  refine ⟨⟨⟨?_, by simp, ?_⟩, hq, ?_⟩, hc, ?_⟩
  · split_ifs <;> simp
  · intro a ha b hb
    split_ifs at ha <;> simp at ha hb <;> subst hb
    · rcases ha with rfl | rfl | rfl <;> simp
    · subst ha; simp
  · intro a ha b hb
    simp only [List.mem_append, List.map_map, List.mem_map, List.mem_range, Function.comp] at ha hb
    obtain ⟨k, -, rfl⟩ := hb
    rcases ha with ⟨c, hc, rfl⟩ | ⟨c, hc, rfl⟩
    · split_ifs at hc <;> simp at hc
      · rcases hc with rfl | rfl | rfl <;> simp
      · subst hc; simp
    · simp at hc; subst hc; simp
  · intro a ha b hb
    simp only [List.mem_append, List.map_map, List.mem_map, List.mem_range, Function.comp] at ha hb
    obtain ⟨k, -, rfl⟩ := hb
    rcases ha with (⟨c, hc, rfl⟩ | ⟨c, hc, rfl⟩) | ⟨c, -, rfl⟩
    · split_ifs at hc <;> simp at hc
      · rcases hc with rfl | rfl | rfl <;> simp [concName]
      · subst hc; simp [concName]
    · simp at hc; subst hc; simp [concName]
    · simp [concName]

/-- The variable after one patch. -/
noncomputable def after (fl : ℝ → ℝ) (p : Patch) (s : Sel) (v : Var) : Var :=
  { v with val := slab fl p.box.z0.toNat p.box.y0.toNat p.box.x0.toNat p.box.nz p.box.ny p.box.nx (p.mem s) v.val }

theorem putOne_some (fl : ℝ → ℝ) (Nz Ny Nx : ℕ) (p : Patch) (hin : Inside Nz Ny Nx p.box) (f : File) (n : Name)
    (s : Sel) (v : Var) (hv : f n = some v) (hd : v.nz = Nz ∧ v.ny = Ny ∧ v.nx = Nx) :
    putOne fl p.box f n (p.mem s) = some (Function.update f n (some (after fl p s v))) := by
  obtain ⟨h1, h2, h3, h4, h5, h6⟩ := hin
  unfold putOne put
  rw [if_pos ⟨h1, h3, h5⟩, hv]
  have hc : p.box.z0.toNat + p.box.nz ≤ v.nz ∧ p.box.y0.toNat + p.box.ny ≤ v.ny ∧ p.box.x0.toNat + p.box.nx ≤ v.nx := by
    rw [hd.1, hd.2.1, hd.2.2]; omega
  rw [Option.bind_some, if_pos hc, Option.map_some]
  rfl

theorem fold_put (fl : ℝ → ℝ) (Nz Ny Nx : ℕ) (p : Patch) (hin : Inside Nz Ny Nx p.box) (L : List (Name × Sel))
    (hnd : (L.map Prod.fst).Nodup) : ∀ f : File,
    (∀ ns ∈ L, ∃ v, f ns.1 = some v ∧ v.nz = Nz ∧ v.ny = Ny ∧ v.nx = Nx) →
    ∃ f', L.foldlM (fun f ns => putOne fl p.box f ns.1 (p.mem ns.2)) f = some f' ∧
      (∀ ns ∈ L, ∀ v, f ns.1 = some v → f' ns.1 = some (after fl p ns.2 v)) ∧
      (∀ n, n ∉ L.map Prod.fst → f' n = f n) := by
  induction L with
  | nil => intro f _; exact ⟨f, rfl, by simp, by simp⟩
  | cons a L ih =>
    intro f hf
    rw [List.map_cons, List.nodup_cons] at hnd
    obtain ⟨v, hv, hd⟩ := hf a (by simp)
    have hne : ∀ ns ∈ L, ns.1 ≠ a.1 := by
      intro ns hns he
      exact hnd.1 (he ▸ List.mem_map_of_mem hns)
    obtain ⟨f', e1, e2, e3⟩ := ih hnd.2 (Function.update f a.1 (some (after fl p a.2 v))) (by
      intro ns hns
      obtain ⟨w, hw, hwd⟩ := hf ns (by simp [hns])
      exact ⟨w, by rw [Function.update_of_ne (hne ns hns)]; exact hw, hwd⟩)
    refine ⟨f', ?_, ?_, ?_⟩
    · rw [List.foldlM_cons, putOne_some fl Nz Ny Nx p hin f a.1 a.2 v hv hd]
      exact e1
    · intro ns hns w hw
      rcases List.mem_cons.1 hns with h | h
      · subst h
        rw [e3 _ hnd.1, Function.update_self]
        rw [hv] at hw
        rw [Option.some.inj hw]
      · refine e2 ns h w ?_
        rw [Function.update_of_ne (hne ns h)]
        exact hw
    · intro n hn
      rw [List.map_cons, List.mem_cons, not_or] at hn
      rw [e3 n hn.2, Function.update_of_ne hn.1]

/-- What is known of a partly written file: the variables exist with the right size, the cells of the patches
written so far hold the rounded state, and there are no other variables. -/
structure Good (fl : ℝ → ℝ) (P : Params) (Nz Ny Nx : ℕ) (F : State) (done : List Patch) (f : File) : Prop where
  have_ : ∀ ns ∈ vars P, ∃ v, f ns.1 = some v ∧ (v.nz = Nz ∧ v.ny = Ny ∧ v.nx = Nx) ∧ v.isDouble = false ∧
    ∀ k j i : ℕ, (∃ p ∈ done, p.box.has i j k) → v.val k j i = fl (F ns.2 i j k)
  none_ : ∀ n, n ∉ (vars P).map Prod.fst → f n = none

theorem slab_val (fl : ℝ → ℝ) (Nz Ny Nx : ℕ) (F : State) (p : Patch) (hin : Inside Nz Ny Nx p.box) (hh : Holds F p)
    (s : Sel) (val : ℕ → ℕ → ℕ → ℝ) (k j i : ℕ) :
    slab fl p.box.z0.toNat p.box.y0.toNat p.box.x0.toNat p.box.nz p.box.ny p.box.nx (p.mem s) val k j i =
      (open Classical in if p.box.has i j k then fl (F s i j k) else val k j i) := by
  obtain ⟨h1, h2, h3, h4, h5, h6⟩ := hin
  unfold slab
  by_cases hb : p.box.has i j k
  · rw [if_pos hb]
    obtain ⟨a1, a2, a3, a4, a5, a6⟩ := hb
    rw [if_pos (by omega)]
    have := hh s (i - p.box.x0.toNat) (j - p.box.y0.toNat) (k - p.box.z0.toNat) (by omega) (by omega) (by omega)
    have e : ((k - p.box.z0.toNat) * p.box.ny + (j - p.box.y0.toNat)) * p.box.nx + (i - p.box.x0.toNat) =
        (i - p.box.x0.toNat) + p.box.nx * ((j - p.box.y0.toNat) + p.box.ny * (k - p.box.z0.toNat)) := by ring
    rw [e, this]
    have e1 : p.box.x0 + ((i - p.box.x0.toNat : ℕ) : ℤ) = i := by omega
    have e2 : p.box.y0 + ((j - p.box.y0.toNat : ℕ) : ℤ) = j := by omega
    have e3 : p.box.z0 + ((k - p.box.z0.toNat : ℕ) : ℤ) = k := by omega
    rw [e1, e2, e3]
  · rw [if_neg hb, if_neg]
    intro hc
    apply hb
    unfold Box.has
    omega

theorem good_step (fl : ℝ → ℝ) (P : Params) (Nz Ny Nx : ℕ) (F : State) (done : List Patch) (f : File) (p : Patch)
    (hin : Inside Nz Ny Nx p.box) (hh : Holds F p) (hg : Good fl P Nz Ny Nx F done f) :
    ∃ f', writePatch fl P f p = some f' ∧ Good fl P Nz Ny Nx F (p :: done) f' := by
  obtain ⟨f', e1, e2, e3⟩ := fold_put fl Nz Ny Nx p hin (vars P) (nodup_vars P) f (by
    intro ns hns
    obtain ⟨v, h1, h2, -⟩ := hg.have_ ns hns
    exact ⟨v, h1, h2⟩)
  refine ⟨f', e1, ?_, ?_⟩
  · intro ns hns
    obtain ⟨v, h1, h2, h3, h4⟩ := hg.have_ ns hns
    refine ⟨_, e2 ns hns v h1, h2, h3, ?_⟩
    rintro k j i ⟨q, hq, hqh⟩
    show slab _ _ _ _ _ _ _ _ _ _ _ _ = _
    rw [slab_val fl Nz Ny Nx F p hin hh]
    by_cases hb : p.box.has i j k
    · rw [if_pos hb]
    · rw [if_neg hb]
      rcases List.mem_cons.1 hq with h | h
      · subst h; exact absurd hqh hb
      · exact h4 k j i ⟨q, h, hqh⟩
  · intro n hn
    rw [e3 n hn]
    exact hg.none_ n hn

theorem good_fold (fl : ℝ → ℝ) (P : Params) (Nz Ny Nx : ℕ) (F : State) (patches : List Patch) :
    ∀ (done : List Patch) (f : File), Good fl P Nz Ny Nx F done f →
    (∀ p ∈ patches, Inside Nz Ny Nx p.box) → (∀ p ∈ patches, Holds F p) →
    ∃ f', patches.foldlM (writePatch fl P) f = some f' ∧
      ∃ all, (∀ p ∈ patches, p ∈ all) ∧ (∀ p ∈ done, p ∈ all) ∧ Good fl P Nz Ny Nx F all f' := by
  induction patches with
  | nil => intro done f hg _ _; exact ⟨f, rfl, done, by simp, fun _ h => h, hg⟩
  | cons p L ih =>
    intro done f hg hin hh
    obtain ⟨f1, e1, g1⟩ := good_step fl P Nz Ny Nx F done f p (hin p (by simp)) (hh p (by simp)) hg
    obtain ⟨f', e2, all, h1, h2, g2⟩ := ih (p :: done) f1 g1 (fun q hq => hin q (by simp [hq]))
      (fun q hq => hh q (by simp [hq]))
    refine ⟨f', ?_, all, ?_, fun q hq => h2 q (by simp [hq]), g2⟩
    · rw [List.foldlM_cons, e1]; exact e2
    · intro q hq
      rcases List.mem_cons.1 hq with h | h
      · exact h2 q (by simp [h])
      · exact h1 q h

/-- **C86** (writing): whatever the number of processes and however the level is cut into patches, the write
succeeds and each stored variable holds the rounded component in every cell of the domain. -/
theorem c86_write (fl : ℝ → ℝ) (P : Params) (Nz Ny Nx : ℕ) (F : State) (patches : List Patch)
    (hl : Layout Nz Ny Nx F patches) :
    ∃ f, writeFile fl P Nz Ny Nx patches = some f ∧
      (∀ ns ∈ vars P, ∃ v, f ns.1 = some v ∧ (v.nz = Nz ∧ v.ny = Ny ∧ v.nx = Nx) ∧ v.isDouble = false ∧
        ∀ k j i : ℕ, k < Nz → j < Ny → i < Nx → v.val k j i = fl (F ns.2 i j k)) ∧
      ∀ n, n ∉ (vars P).map Prod.fst → f n = none := by
  obtain ⟨f, e, all, h1, -, g⟩ := good_fold fl P Nz Ny Nx F patches [] (create P Nz Ny Nx) (by
    refine ⟨?_, ?_⟩
    · intro ns hns
      refine ⟨⟨Nz, Ny, Nx, false, fun _ _ _ => fill⟩, ?_, ⟨rfl, rfl, rfl⟩, rfl, by rintro k j i ⟨p, hp, -⟩; simp at hp⟩
      unfold create
      rw [if_pos (List.mem_map_of_mem hns)]
    · intro n hn
      unfold create
      rw [if_neg hn]) hl.inside hl.holds
  refine ⟨f, e, ?_, g.none_⟩
  intro ns hns
  obtain ⟨v, a1, a2, a3, a4⟩ := g.have_ ns hns
  refine ⟨v, a1, a2, a3, ?_⟩
  intro k j i hk hj hi
  obtain ⟨p, hp, hb⟩ := hl.covers i j k (by unfold InDomain; omega)
  exact a4 k j i ⟨p, h1 p hp, hb⟩

/-! ## Reading -/

theorem index_split (nx ny ix iy iz : ℕ) (hx : ix < nx) (hy : iy < ny) :
    (nx * ny * iz + nx * iy + ix) / (ny * nx) = iz ∧ (nx * ny * iz + nx * iy + ix) / nx % ny = iy ∧
    (nx * ny * iz + nx * iy + ix) % nx = ix := by
  have e : nx * ny * iz + nx * iy + ix = ix + nx * (iy + ny * iz) := by ring
  have h1 : (ix + nx * (iy + ny * iz)) / nx = iy + ny * iz := by
    rw [Nat.add_mul_div_left _ _ (by omega), Nat.div_eq_of_lt hx, zero_add]
  have h2 : (iy + ny * iz) / ny = iz := by
    rw [Nat.add_mul_div_left _ _ (by omega), Nat.div_eq_of_lt hy, zero_add]
  refine ⟨?_, ?_, ?_⟩
  · rw [e, Nat.mul_comm ny nx, ← Nat.div_div_eq_div_mul, h1, h2]
  · rw [e, h1, Nat.add_mul_mod_self_left, Nat.mod_eq_of_lt hy]
  · rw [e, Nat.add_mul_mod_self_left, Nat.mod_eq_of_lt hx]

/-- The requests considered: the settings of the writer. -/
theorem lookup_vars (P : Params) (f : File) (F : State) (fl : ℝ → ℝ) (Nz Ny Nx : ℕ)
    (hv : ∀ ns ∈ vars P, ∃ v, f ns.1 = some v ∧ (v.nz = Nz ∧ v.ny = Ny ∧ v.nx = Nx) ∧ v.isDouble = false ∧
        ∀ k j i : ℕ, k < Nz → j < Ny → i < Nx → v.val k j i = fl (F ns.2 i j k))
    (hn : ∀ n, n ∉ (vars P).map Prod.fst → f n = none) (s : Sel)
    (hs : match s with
      | Sel.phase d => P.three = true → d < 3
      | Sel.temp => True
      | Sel.quat d => d < P.qlen
      | Sel.conc d => d < P.ncomp) :
    (lookupName P.ncomp f s, stored P s) ∈ vars P := by
  have hphase : (f (Base.phase, none)).isSome = !P.three := by
    by_cases h3 : P.three = true
    · rw [hn (Base.phase, none) (by unfold vars; simp [h3, concName]), h3]; rfl
    · obtain ⟨v, h, -⟩ := hv ((Base.phase, none), Sel.phase 0) (by unfold vars; simp [h3])
      have h3' : P.three = false := by simpa using h3
      rw [h, h3']; rfl
  cases s with
  | phase d =>
    unfold lookupName stored
    rw [hphase]
    by_cases h3 : P.three = true
    · have hd := hs h3
      unfold vars
      interval_cases d <;> simp [h3]
    · unfold vars; simp [h3]
  | temp => unfold lookupName stored vars; simp
  | quat d => unfold lookupName stored vars; simp; exact Or.inr hs
  | conc d =>
    have hm : (concName P.ncomp d, Sel.conc d) ∈ vars P := by
      unfold vars
      exact List.mem_append_right _ (List.mem_map.2 ⟨d, List.mem_range.2 hs, rfl⟩)
    obtain ⟨v, h, -⟩ := hv _ hm
    simp only at h
    have e : lookupName P.ncomp f (Sel.conc d) = concName P.ncomp d := by
      show (if (f (concName P.ncomp d)).isNone = true ∧ P.ncomp = 1 then _ else _) = _
      rw [if_neg (by rw [h]; simp)]
    rw [e]
    exact hm

theorem lookup_zero (f : File) (n d : ℕ) : lookupName n f (Sel.phase d) = lookupName 0 f (Sel.phase d) := rfl

/-- **C86** (reading back): on any patch of any later decomposition the read succeeds; the temperature, the
orientation and the compositions read are the rounded saved ones, the order parameters read are those *stored*, and
the last order parameter, when it is not read, is one minus the sum of the others. -/
theorem c86_read_back (fl : ℝ → ℝ) (hfl : Rounds fl) (P : Params) (Nz Ny Nx : ℕ) (F : State)
    (patches : List Patch) (hl : Layout Nz Ny Nx F patches) (hc : Physical P.ncomp Nz Ny Nx F)
    (readT flat : Bool) (slice : ℤ) (h2 : flat = true → Nz = 1) :
    ∃ f, writeFile fl P Nz Ny Nx patches = some f ∧
      ∀ b, Inside Nz Ny Nx b → (flat = true → b.z0 = 0 ∧ b.nz = 1) →
        ∃ u, readPatch fl (request P readT flat slice) Nz Ny Nx f b = some u ∧
          (∀ s ∈ requested (request P readT flat slice), ∀ x y z, b.has x y z →
            u s x y z = fl (F (stored P s) x y z)) ∧
          (P.three = false → P.norderpA + P.norderpB < P.norderp → ∀ x y z, b.has x y z →
            u (Sel.phase (P.norderpA + P.norderpB)) x y z =
              1 - ∑ _d ∈ Finset.range (P.norderpA + P.norderpB), fl (F (Sel.phase 0) x y z)) := by
  obtain ⟨f, e, hv, hn⟩ := c86_write fl P Nz Ny Nx F patches hl
  refine ⟨f, e, ?_⟩
  intro b hb hbz
  set r := request P readT flat slice with hr
  have hl0 := lookup_vars P f F fl Nz Ny Nx hv hn (Sel.phase 0) (by intro _; norm_num)
  obtain ⟨v0, w1, w2, w3, -⟩ := hv _ hl0
  simp only at w1
  rw [lookup_zero] at w1
  have hdims : fileDims f = some (Nz, Ny, Nx) := by
    unfold fileDims
    rw [w1, Option.map_some, w2.1, w2.2.1, w2.2.2]
  have hconv : conv fl f = fl := by
    unfold conv
    rw [w1]
    simp only [w3, Bool.false_eq_true, if_false]
  have hisl : flat = true → islice r Nz = 0 := by
    intro h
    unfold islice
    rw [hr]
    unfold request
    simp only [h, if_true, h2 h]
    split_ifs <;> rfl
  -- each requested component
  have hsel : ∀ s, (match s with
      | Sel.phase d => P.three = true → d < 3
      | Sel.temp => True
      | Sel.quat d => d < P.qlen
      | Sel.conc d => d < P.ncomp) →
      ∃ w, readSel fl r (islice r Nz) f b s = some w ∧ ∀ x y z, b.has x y z → w x y z = fl (F (stored P s) x y z) := by
    intro s hs
    obtain ⟨v, a1, a2, a3, a4⟩ := hv _ (lookup_vars P f F fl Nz Ny Nx hv hn s hs)
    simp only at a1 a4
    obtain ⟨b1, b2, b3, b4, b5, b6⟩ := hb
    have hzl : (if r.flat then islice r Nz else b.z0.toNat) = b.z0.toNat := by
      by_cases h : flat = true
      · have : r.flat = true := by rw [hr]; exact h
        rw [if_pos this, hisl h, (hbz h).1]; rfl
      · have : ¬ r.flat = true := by rw [hr]; exact h
        rw [if_neg this]
    have hcnt : b.z0.toNat + b.nz ≤ v.nz ∧ b.y0.toNat + b.ny ≤ v.ny ∧ b.x0.toNat + b.nx ≤ v.nx := by
      rw [a2.1, a2.2.1, a2.2.2]; omega
    have hnc : r.ncomp = P.ncomp := rfl
    unfold readSel
    rw [hnc, a1, Option.bind_some, if_pos ⟨b1, b3, b5⟩]
    simp only [hzl]
    unfold get
    rw [if_pos hcnt, Option.map_some]
    refine ⟨_, rfl, ?_⟩
    rintro x y z ⟨c1, c2, c3, c4, c5, c6⟩
    obtain ⟨i1, i2, i3⟩ := index_split b.nx b.ny (x - b.x0).toNat (y - b.y0).toNat (z - b.z0).toNat (by omega) (by omega)
    beta_reduce
    rw [i1, i2, i3, hconv, a4 _ _ _ (by omega) (by omega) (by omega), hfl.idem]
    have e1 : ((b.x0.toNat + (x - b.x0).toNat : ℕ) : ℤ) = x := by omega
    have e2 : ((b.y0.toNat + (y - b.y0).toNat : ℕ) : ℤ) = y := by omega
    have e3 : ((b.z0.toNat + (z - b.z0).toNat : ℕ) : ℤ) = z := by omega
    rw [e1, e2, e3]
  have hreq : ∀ s ∈ requested r, (match s with
      | Sel.phase d => P.three = true → d < 3
      | Sel.temp => True
      | Sel.quat d => d < P.qlen
      | Sel.conc d => d < P.ncomp) := by
    intro s hs
    unfold requested at hs
    rw [hr] at hs
    unfold request at hs
    simp only [List.mem_append, List.mem_map, List.mem_range] at hs
    rcases hs with ((⟨d, hd, rfl⟩ | hs) | ⟨d, hd, rfl⟩) | ⟨d, hd, rfl⟩
    · intro h3
      simpa [h3] using hd
    · split_ifs at hs
      · simp at hs; subst hs; trivial
      · simp at hs
    · exact hd
    · exact hd
  have hsome : ∀ s ∈ requested r, (readSel fl r (islice r Nz) f b s).isSome := by
    intro s hs
    obtain ⟨w, hw, -⟩ := hsel s (hreq s hs)
    rw [hw]; rfl
  have hval : ∀ s ∈ requested r, ∀ x y z, b.has x y z →
      (readSel fl r (islice r Nz) f b s).getD (fun _ _ _ => 0) x y z = fl (F (stored P s) x y z) := by
    intro s hs x y z hxyz
    obtain ⟨w, hw, hw2⟩ := hsel s (hreq s hs)
    rw [hw, Option.getD_some]
    exact hw2 x y z hxyz
  have hconc : ∀ d < r.ncomp, ∀ x y z, b.has x y z →
      0 ≤ (readSel fl r (islice r Nz) f b (Sel.conc d)).getD (fun _ _ _ => 0) x y z ∧
      (readSel fl r (islice r Nz) f b (Sel.conc d)).getD (fun _ _ _ => 0) x y z ≤ 1 := by
    intro d hd x y z hxyz
    have hm : Sel.conc d ∈ requested r := by
      unfold requested
      exact List.mem_append_right _ (List.mem_map_of_mem (List.mem_range.2 hd))
    rw [hval _ hm x y z hxyz]
    obtain ⟨b1, b2, b3, b4, b5, b6⟩ := hb
    obtain ⟨c1, c2, c3, c4, c5, c6⟩ := hxyz
    have := hc d hd x y z (by unfold InDomain; omega)
    exact hfl.unit _ this.1 this.2
  have hnr : r.nread = if P.three then 3 else P.norderpA + P.norderpB := rfl
  have hdp : r.depth = if P.three then 3 else P.norderp := rfl
  unfold readPatch
  rw [hdims, Option.bind_some, if_pos rfl]
  simp only
  rw [if_pos hsome, if_pos hconc]
  refine ⟨_, rfl, ?_, ?_⟩
  · intro s hs x y z hxyz
    have hne : ¬ (r.depth > r.nread ∧ s = Sel.phase r.nread) := by
      rintro ⟨-, h⟩
      subst h
      unfold requested at hs
      simp only [List.mem_append, List.mem_map, List.mem_range] at hs
      rcases hs with ((⟨d, hd, he⟩ | hs) | ⟨d, hd, he⟩) | ⟨d, hd, he⟩
      · have := Sel.phase.inj he; omega
      · split_ifs at hs <;> simp at hs
      · cases he
      · cases he
    rw [if_neg hne]
    exact hval s hs x y z hxyz
  · intro h3 hlt x y z hxyz
    have hnr' : r.nread = P.norderpA + P.norderpB := by rw [hnr, h3]; rfl
    have hdp' : r.depth = P.norderp := by rw [hdp, h3]; rfl
    rw [if_pos ⟨by rw [hnr', hdp']; exact hlt, by rw [hnr']⟩, hnr']
    congr 1
    refine Finset.sum_congr rfl ?_
    intro d hd
    have hm : Sel.phase d ∈ requested r := by
      unfold requested
      refine List.mem_append_left _ (List.mem_append_left _ (List.mem_append_left _ ?_))
      exact List.mem_map_of_mem (List.mem_range.2 (by rw [hnr']; exact Finset.mem_range.1 hd))
    rw [hval _ hm x y z hxyz]
    unfold stored
    simp only [h3, Bool.false_eq_true, if_false]

/-- **C86, partial**: with one order parameter or with the three-phase model the state read back is the saved
state rounded to the file's precision, for every decomposition at writing and at reading.  (Missing: several order
parameters, the temperature in reduced units, for which it is false.) -/
theorem c86_roundtrip_partial (fl : ℝ → ℝ) (hfl : Rounds fl) (P : Params) (Nz Ny Nx : ℕ) (F : State)
    (patches : List Patch) (hl : Layout Nz Ny Nx F patches) (hc : Physical P.ncomp Nz Ny Nx F)
    (readT flat : Bool) (slice : ℤ) (h2 : flat = true → Nz = 1)
    (hP : P.three = true ∨ (P.norderp = 1 ∧ P.norderpA = defaultNorderpA P.norderp ∧
      P.norderpB = norderpBOf P.norderp P.norderpA)) :
    ∃ f, writeFile fl P Nz Ny Nx patches = some f ∧
      ∀ b, Inside Nz Ny Nx b → (flat = true → b.z0 = 0 ∧ b.nz = 1) →
        ∃ u, readPatch fl (request P readT flat slice) Nz Ny Nx f b = some u ∧
          ∀ x y z, b.has x y z →
            (∀ d < P.depth, u (Sel.phase d) x y z = fl (F (Sel.phase d) x y z)) ∧
            (readT = true → u Sel.temp x y z = fl (F Sel.temp x y z)) ∧
            (∀ d < P.qlen, u (Sel.quat d) x y z = fl (F (Sel.quat d) x y z)) ∧
            (∀ d < P.ncomp, u (Sel.conc d) x y z = fl (F (Sel.conc d) x y z)) := by
  obtain ⟨f, e, h⟩ := c86_read_back fl hfl P Nz Ny Nx F patches hl hc readT flat slice h2
  refine ⟨f, e, ?_⟩
  intro b hb hbz
  obtain ⟨u, hu, h1, -⟩ := h b hb hbz
  refine ⟨u, hu, ?_⟩
  intro x y z hxyz
  refine ⟨?_, ?_, ?_, ?_⟩
  · intro d hd
    have hm : Sel.phase d ∈ requested (request P readT flat slice) := by
      unfold requested
      refine List.mem_append_left _ (List.mem_append_left _ (List.mem_append_left _ ?_))
      refine List.mem_map_of_mem (List.mem_range.2 ?_)
      unfold request Params.depth at *
      rcases hP with h3 | ⟨h3, h4, h5⟩
      · simpa [h3] using hd
      · by_cases h6 : P.three = true
        · simpa [h6] using hd
        · simp only [h6] at hd ⊢
          rw [h4, h3]
          unfold defaultNorderpA
          simp at hd ⊢; omega
    rw [h1 _ hm x y z hxyz]
    unfold stored Params.depth at *
    rcases hP with h3 | ⟨h3, -, -⟩
    · simp [h3]
    · by_cases h6 : P.three = true
      · simp [h6]
      · simp only [h6, h3] at hd ⊢
        have : d = 0 := by simp at hd; exact hd
        simp [this]
  · intro hT
    refine h1 _ ?_ x y z hxyz
    unfold requested request
    simp [hT]
  · intro d hd
    refine h1 _ ?_ x y z hxyz
    unfold requested
    exact List.mem_append_left _ (List.mem_append_right _ (List.mem_map_of_mem (List.mem_range.2 hd)))
  · intro d hd
    refine h1 _ ?_ x y z hxyz
    unfold requested
    exact List.mem_append_right _ (List.mem_map_of_mem (List.mem_range.2 hd))

/-- **C86, violated**: with `N > 1` order parameters only the first is in the file, and it is read into all of the
first `N - 1`; the last becomes one minus `N - 1` times it. -/
theorem c86_violation_order_parameters (fl : ℝ → ℝ) (hfl : Rounds fl) (P : Params) (Nz Ny Nx : ℕ) (F : State)
    (patches : List Patch) (hl : Layout Nz Ny Nx F patches) (hc : Physical P.ncomp Nz Ny Nx F)
    (readT flat : Bool) (slice : ℤ) (h2 : flat = true → Nz = 1) (h3 : P.three = false) (hN : 1 < P.norderp)
    (hA : P.norderpA = defaultNorderpA P.norderp) (hB : P.norderpB = norderpBOf P.norderp P.norderpA) :
    ∃ f, writeFile fl P Nz Ny Nx patches = some f ∧
      ∀ b, Inside Nz Ny Nx b → (flat = true → b.z0 = 0 ∧ b.nz = 1) →
        ∃ u, readPatch fl (request P readT flat slice) Nz Ny Nx f b = some u ∧
          ∀ x y z, b.has x y z →
            (∀ d < P.norderp - 1, u (Sel.phase d) x y z = fl (F (Sel.phase 0) x y z)) ∧
            u (Sel.phase (P.norderp - 1)) x y z = 1 - (P.norderp - 1) * fl (F (Sel.phase 0) x y z) := by
  have hA' : P.norderpA = P.norderp - 1 := by rw [hA]; unfold defaultNorderpA; rw [if_neg (by omega)]
  have hB' : P.norderpB = 0 := by rw [hB, hA']; unfold norderpBOf; omega
  have hAB : P.norderpA + P.norderpB = P.norderp - 1 := by omega
  obtain ⟨f, e, h⟩ := c86_read_back fl hfl P Nz Ny Nx F patches hl hc readT flat slice h2
  refine ⟨f, e, ?_⟩
  intro b hb hbz
  obtain ⟨u, hu, h1, hlast⟩ := h b hb hbz
  refine ⟨u, hu, ?_⟩
  intro x y z hxyz
  constructor
  · intro d hd
    have hm : Sel.phase d ∈ requested (request P readT flat slice) := by
      unfold requested
      refine List.mem_append_left _ (List.mem_append_left _ (List.mem_append_left _ ?_))
      refine List.mem_map_of_mem (List.mem_range.2 ?_)
      unfold request
      simp only [h3, Bool.false_eq_true, if_false]
      omega
    rw [h1 _ hm x y z hxyz]
    unfold stored
    simp [h3]
  · have := hlast h3 (by omega) x y z hxyz
    rw [hAB, Finset.sum_const, Finset.card_range, nsmul_eq_mul] at this
    rw [this]
    have : ((P.norderp - 1 : ℕ) : ℝ) = P.norderp - 1 := by
      rw [Nat.cast_sub (by omega)]; norm_num
    rw [this]

/-- **C86, violated**: the same, as a criterion — a state with two solid order parameters survives only if the two
agree to the file's precision. -/
theorem c86_violation_two_grains (fl : ℝ → ℝ) (hfl : Rounds fl) (P : Params) (Nz Ny Nx : ℕ) (F : State)
    (patches : List Patch) (hl : Layout Nz Ny Nx F patches) (hc : Physical P.ncomp Nz Ny Nx F)
    (readT flat : Bool) (slice : ℤ) (h2 : flat = true → Nz = 1) (h3 : P.three = false) (hN : 2 < P.norderp)
    (hA : P.norderpA = defaultNorderpA P.norderp) (hB : P.norderpB = norderpBOf P.norderp P.norderpA)
    (b : Box) (hb : Inside Nz Ny Nx b) (hbz : flat = true → b.z0 = 0 ∧ b.nz = 1) (x y z : ℤ) (hx : b.has x y z) :
    ∃ f u, writeFile fl P Nz Ny Nx patches = some f ∧
      readPatch fl (request P readT flat slice) Nz Ny Nx f b = some u ∧
      (u (Sel.phase 1) x y z = fl (F (Sel.phase 1) x y z) ↔
        fl (F (Sel.phase 0) x y z) = fl (F (Sel.phase 1) x y z)) := by
  obtain ⟨f, e, h⟩ := c86_violation_order_parameters fl hfl P Nz Ny Nx F patches hl hc readT flat slice h2 h3
    (by omega) hA hB
  obtain ⟨u, hu, h1⟩ := h b hb hbz
  refine ⟨f, u, e, hu, ?_⟩
  rw [(h1 x y z hx).1 1 (by omega)]

/-- **C86, violated**: a run in reduced temperature units writes the reduced temperature and, on restart from that
file, divides it once more: unless the factor is 1 (or the value 0) the start temperature is wrong. -/
theorem c86_violation_reduced_temperature (fl : ℝ → ℝ) (factor t : ℝ) (hf : factor ≠ 0) :
    let reduced := startTemp true factor t
    (startTemp true factor (fl reduced) = fl reduced ↔ factor = 1 ∨ fl reduced = 0) ∧
    startTemp false factor (fl t) = fl t := by
  intro reduced
  refine ⟨?_, rfl⟩
  unfold startTemp
  rw [if_pos rfl, one_div, inv_mul_eq_iff_eq_mul₀ hf]
  constructor
  · intro h
    by_cases h0 : fl reduced = 0
    · exact Or.inr h0
    · left
      have : (factor - 1) * fl reduced = 0 := by linear_combination -h
      rcases mul_eq_zero.1 this with h' | h'
      · linarith
      · exact absurd h' h0
  · rintro (h | h) <;> rw [h] <;> ring

open Classical in
/-- The end of `readPatch`, given what is read for each component. -/
noncomputable def collect (r : Request) (b : Box) (R : Sel → Option (ℤ → ℤ → ℤ → ℝ)) :
    Option (Sel → ℤ → ℤ → ℤ → ℝ) :=
  if (∀ s ∈ requested r, (R s).isSome) then
    let u : Sel → ℤ → ℤ → ℤ → ℝ := fun s => (R s).getD fun _ _ _ => 0
    if ∀ d < r.ncomp, ∀ x y z, b.has x y z → 0 ≤ u (Sel.conc d) x y z ∧ u (Sel.conc d) x y z ≤ 1 then
      some fun s x y z =>
        if r.depth > r.nread ∧ s = Sel.phase r.nread then 1 - ∑ d ∈ Finset.range r.nread, u (Sel.phase d) x y z
        else u s x y z
    else none
  else none

/-- **C86, violated**: in two dimensions `slice_index` has no effect — a file that is more than one cell thick is
refused whatever the index, and for the others every index reads the same data. -/
theorem c86_violation_slice (fl : ℝ → ℝ) (P : Params) (readT : Bool) (Ny Nx : ℕ) (f : File) (b : Box) :
    (∀ s s' : ℤ, readPatch fl (request P readT true s) 1 Ny Nx f b = readPatch fl (request P readT true s') 1 Ny Nx f b) ∧
    (∀ (s : ℤ) (nz ny nx : ℕ), fileDims f = some (nz, ny, nx) → nz ≠ 1 →
      readPatch fl (request P readT true s) 1 Ny Nx f b = none) := by
  constructor
  · intro s s'
    unfold readPatch
    rcases hd : fileDims f with _ | dims
    · rfl
    · rw [Option.bind_some, Option.bind_some]
      by_cases h : dims = (1, Ny, Nx)
      · subst h
        have hi : ∀ s, islice (request P readT true s) 1 = 0 := by
          intro s; unfold islice request; split_ifs <;> rfl
        have hd' : ∀ r r' : Request, r.flat = true → r'.flat = true → islice r 1 = 0 → islice r' 1 = 0 →
            r.nread = r'.nread → r.depth = r'.depth → r.readT = r'.readT → r.qlen = r'.qlen → r.ncomp = r'.ncomp →
            (readSel fl r (islice r 1) f b = readSel fl r' (islice r' 1) f b) ∧ requested r = requested r' := by
          rintro ⟨a1, a2, a3, a4, a5, a6, a7⟩ ⟨b1, b2, b3, b4, b5, b6, b7⟩ h1 h2 h3 h4 h5 h6 h7 h8 h9
          simp only at h5 h6 h7 h8 h9
          subst h5 h6 h7 h8 h9
          refine ⟨?_, rfl⟩
          rw [h3, h4]
          unfold readSel
          simp only at h1 h2
          rw [h1, h2]
        obtain ⟨k1, k2⟩ := hd' (request P readT true s) (request P readT true s') rfl rfl (hi s) (hi s') rfl rfl rfl rfl rfl
        rw [if_pos rfl, if_pos rfl]
        show collect (request P readT true s) b (readSel fl (request P readT true s) (islice (request P readT true s) 1) f b) =
          collect (request P readT true s') b (readSel fl (request P readT true s') (islice (request P readT true s') 1) f b)
        rw [k1]
        rfl
      · rw [if_neg h, if_neg h]
  · intro s nz ny nx hd hne
    unfold readPatch
    rw [hd, Option.bind_some, if_neg]
    intro h
    exact hne (congrArg Prod.fst h)

/-- **C86**: a file whose size differs from the domain is refused. -/
theorem c86_wrong_size (fl : ℝ → ℝ) (r : Request) (Nz Ny Nx : ℕ) (f : File) (b : Box) (u : Sel → ℤ → ℤ → ℤ → ℝ)
    (h : readPatch fl r Nz Ny Nx f b = some u) : fileDims f = some (Nz, Ny, Nx) := by
  unfold readPatch at h
  obtain ⟨dims, h1, h2⟩ := Option.bind_eq_some_iff.1 h
  by_cases hd : dims = (Nz, Ny, Nx)
  · rw [h1, hd]
  · rw [if_neg hd] at h2; cases h2

/-! ## Non-vacuity -/

/-- A state on a 2 × 1 × 1 domain in two patches. -/
example : ∃ (P : Params) (F : State) (patches : List Patch), Layout 1 1 2 F patches ∧ patches.length = 2 ∧
    Physical P.ncomp 1 1 2 F ∧ P.norderp = 3 ∧ P.three = false ∧ P.norderpA = defaultNorderpA P.norderp ∧
    P.norderpB = norderpBOf P.norderp P.norderpA ∧ F (Sel.phase 0) 0 0 0 ≠ F (Sel.phase 1) 0 0 0 := by
  refine ⟨⟨false, 3, 2, 0, 0, 1⟩, fun s x _ _ => if s = Sel.phase 0 then 1 else if s = Sel.conc 0 then 1 / 2 else 0 * x,
    [⟨⟨0, 0, 0, 1, 1, 1⟩, fun s _ => if s = Sel.phase 0 then 1 else if s = Sel.conc 0 then 1 / 2 else 0⟩,
     ⟨⟨1, 0, 0, 1, 1, 1⟩, fun s _ => if s = Sel.phase 0 then 1 else if s = Sel.conc 0 then 1 / 2 else 0⟩], ?_, rfl, ?_,
    rfl, rfl, rfl, rfl, by simp⟩
  · refine ⟨?_, ?_, ?_⟩
    · intro p hp; simp at hp; rcases hp with rfl | rfl <;> simp [Inside]
    · intro p hp; simp at hp
      rcases hp with rfl | rfl <;> intro s ix iy iz _ _ _ <;> simp
    · intro x y z h
      unfold InDomain at h
      have : x = 0 ∨ x = 1 := by omega
      rcases this with rfl | rfl
      · exact ⟨_, List.mem_cons_self, by unfold Box.has; simp; omega⟩
      · exact ⟨_, List.mem_cons_of_mem _ List.mem_cons_self, by unfold Box.has; simp; omega⟩
  · intro d hd x y z _
    have : d = 0 := by simp at hd; exact hd
    subst this
    have : ¬ (Sel.conc 0 = Sel.phase 0) := by simp
    simp only [this, if_false, if_true]
    norm_num

/-- The identity and the rounding to integers of values are admissible roundings. -/
example : Rounds id := ⟨fun _ => rfl, fun _ h1 h2 => ⟨h1, h2⟩⟩

example : Rounds fun x => (⌊x⌋ : ℝ) := by
  refine ⟨fun x => by simp, ?_⟩
  intro x h0 h1
  constructor
  · exact_mod_cast Int.floor_nonneg.2 h0
  · exact le_trans (Int.floor_le x) h1

end AMPE.FieldsFile.Props
