import Verif.Model.MobilityFile
import Mathlib.Analysis.SpecialFunctions.Log.Basic
import Mathlib.Tactic.FieldSimp
import Mathlib.Tactic.Linarith
import Mathlib.Tactic.FinCases

/-! # C138: mobilities are those of the file; the table of diffusion coefficients shows what its titles say -/

namespace AMPE.MobilityFile.Props

open AMPE.Coefficients AMPE.MobilityFile

/-- First order term of the file at temperature `T`: `[a, b]` stands for `a + R T log b`, two further entries `[.., c, d]` for
`c T log T + d / T`. -/
noncomputable def fileQ (R : ℝ) (a : List ℝ) (T : ℝ) : ℝ :=
  match a with
  | [a, b] => a + R * T * Real.log b
  | [a, b, c, d] => a + R * T * Real.log b + c * T * Real.log T + d / T
  | _ => 0

/-- Interaction term: absent means zero. -/
noncomputable def fileQQ (R : ℝ) (a : Option (List ℝ)) (T : ℝ) : ℝ :=
  match a with
  | some [a, b] => a + R * T * Real.log b
  | _ => 0

/-- A file for `n` = 2 or 3 species: first order terms for exactly these, all arrays of the documented lengths. -/
structure Proper (f : File) (n : ℕ) : Prop where
  size : n = 2 ∨ n = 3
  q : ∀ s : Fin 4, (s : ℕ) < n → ∃ a, f.q s = some a ∧ (a.length = 2 ∨ a.length = 4)
  rest : ∀ s : Fin 4, n ≤ (s : ℕ) → f.q s = none
  qq : ∀ k j a, f.qq k j = some a → a.length = 2

theorem two (a : List ℝ) (h : a.length = 2) : ∃ x y, a = [x, y] := by
  match a, h with
  | [x, y], _ => exact ⟨x, y, rfl⟩

theorem four (a : List ℝ) (h : a.length = 4) : ∃ x y z w, a = [x, y, z, w] := by
  match a, h with
  | [x, y, z, w], _ => exact ⟨x, y, z, w, rfl⟩

theorem pair_ok (a : Option (List ℝ)) (h : ∀ l, a = some l → l.length = 2) :
    ∃ p, readPair a = some p ∧ ∀ R T, p.1 + R * T * Real.log p.2 = fileQQ R a T := by
  match a with
  | none => exact ⟨(0, 1), rfl, fun R T => by simp [fileQQ]⟩
  | some l =>
    obtain ⟨x, y, rfl⟩ := two l (h l rfl)
    exact ⟨(x, y), by simp [readPair], fun R T => rfl⟩

theorem order_ok (n : ℕ) (hn : n = 2 ∨ n = 3) (g : Fin 3 → Option (List ℝ)) (h : ∀ j l, g j = some l → l.length = 2) :
    ∃ qq, readOrder n g = some qq ∧ ∀ R T, getQQ R qq 0 1 T = fileQQ R (g 0) T ∧
      (n = 3 → getQQ R qq 0 2 T = fileQQ R (g 1) T ∧ getQQ R qq 1 2 T = fileQQ R (g 2) T) := by
  obtain ⟨p0, h0, e0⟩ := pair_ok (g 0) (h 0)
  obtain ⟨p1, h1, e1⟩ := pair_ok (g 1) (h 1)
  obtain ⟨p2, h2, e2⟩ := pair_ok (g 2) (h 2)
  rcases hn with rfl | rfl
  · exact ⟨fun i j => if (i, j) = (0, 1) then p0 else (0, 0), by simp [readOrder, h0],
      fun R T => ⟨by simpa [getQQ] using e0 R T, by simp⟩⟩
  · exact ⟨fun i j => if (i, j) = (0, 1) then p0 else if (i, j) = (0, 2) then p1 else if (i, j) = (1, 2) then p2 else (0, 0),
      by simp [readOrder, h0, h1, h2],
      fun R T => ⟨by simpa [getQQ] using e0 R T, fun _ => ⟨by simpa [getQQ] using e1 R T, by simpa [getQQ] using e2 R T⟩⟩⟩

/-- `getQ` of what was read so far. -/
noncomputable def linQ (R : ℝ) (l : Lin) (i : ℕ) (T : ℝ) : ℝ :=
  (l.q i).1 + R * T * Real.log (l.q i).2 + if l.hasExtra then (l.extra i).1 * T * Real.log T + (l.extra i).2 / T else 0

/-- One array: its own slot is set, slots without extra entries that were not read yet (`extra = (0, 0)`) keep their value. -/
theorem lin_step (n : ℕ) (junk : ℝ) (f : File) (l : Lin) (s : Fin 4) (a : List ℝ) (ha : f.q s = some a)
    (hl : a.length = 2 ∨ a.length = 4) (hs : slot s < n) (hx : l.extra (slot s) = (0, 0))
    (hno : l.hasExtra = false → ∀ i, l.extra i = (0, 0)) :
    ∃ l', readLin n junk f l s = some l' ∧ (∀ R T, linQ R l' (slot s) T = fileQ R a T) ∧
      (∀ i, i ≠ slot s → (∀ R T, linQ R l' i T = linQ R l i T) ∧ l'.extra i = l.extra i) ∧
      (l'.hasExtra = false → ∀ i, l'.extra i = (0, 0)) := by
  rcases hl with hl | hl
  · obtain ⟨x, y, rfl⟩ := two a hl
    refine ⟨⟨Function.update l.q (slot s) (x, y), l.hasExtra, l.extra⟩, by simp [readLin, ha, hs], ?_, ?_, hno⟩
    · intro R T
      simp [linQ, fileQ, hx]
    · intro i hi
      exact ⟨fun R T => by simp [linQ, Function.update_of_ne hi], rfl⟩
  · obtain ⟨x, y, z, w, rfl⟩ := four a hl
    refine ⟨⟨Function.update l.q (slot s) (x, y), true, Function.update l.extra (slot s) (z, w)⟩, by simp [readLin, ha, hs], ?_, ?_, by simp⟩
    · intro R T
      simp only [linQ, fileQ, Function.update_self, if_true]
      ring
    · intro i hi
      refine ⟨fun R T => ?_, by simp [Function.update_of_ne hi]⟩
      cases he : l.hasExtra with
      | true => simp [linQ, Function.update_of_ne hi, he]
      | false => simp [linQ, Function.update_of_ne hi, he, hno he i]

theorem lin_skip (n : ℕ) (junk : ℝ) (f : File) (l : Lin) (s : Fin 4) (h : f.q s = none) : readLin n junk f l s = some l := by
  simp only [readLin, h]

/-- **C138**: a file for two or three species, all arrays of the documented lengths, is read, and every first order term and
every interaction term in use has the value the file gives it at every temperature; absent interaction terms are zero. -/
theorem c138_read_partial (junk : ℝ) (f : File) (n : ℕ) (h : Proper f n) : ∃ p, read junk f = some p ∧ ∀ R T,
    (∀ (s : Fin 4) a, f.q s = some a → getQ R p s T = fileQ R a T) ∧
    (getQQ R p.qq0 0 1 T = fileQQ R (f.qq 0 0) T ∧ getQQ R p.qq1 0 1 T = fileQQ R (f.qq 1 0) T ∧
      getQQ R p.qq2 0 1 T = fileQQ R (f.qq 2 0) T ∧ getQQ R p.qq3 0 1 T = fileQQ R (f.qq 3 0) T) ∧
    (n = 3 → (getQQ R p.qq0 0 2 T = fileQQ R (f.qq 0 1) T ∧ getQQ R p.qq0 1 2 T = fileQQ R (f.qq 0 2) T) ∧
      getQQ R p.qq1 0 2 T = fileQQ R (f.qq 1 1) T ∧ getQQ R p.qq1 1 2 T = fileQQ R (f.qq 1 2) T) := by
  obtain ⟨q0, r0, e0⟩ := order_ok n h.size (f.qq 0) (h.qq 0)
  obtain ⟨q1, r1, e1⟩ := order_ok n h.size (f.qq 1) (h.qq 1)
  obtain ⟨q2, r2, e2⟩ := order_ok n h.size (f.qq 2) (h.qq 2)
  obtain ⟨q3, r3, e3⟩ := order_ok n h.size (f.qq 3) (h.qq 3)
  have hn2 : 2 ≤ n := by rcases h.size with rfl | rfl <;> omega
  obtain ⟨a0, ha0, la0⟩ := h.q 0 (by simp; omega)
  obtain ⟨a1, ha1, la1⟩ := h.q 1 (by simp; omega)
  have h3 : f.q 3 = none := h.rest 3 (by rcases h.size with rfl | rfl <;> simp)
  obtain ⟨l0, s0, v0, k0, x0⟩ := lin_step n junk f ⟨fun _ => (0, 0), false, fun _ => (0, 0)⟩ 0 a0 ha0 la0
    (by simp [slot]; omega) rfl (fun _ _ => rfl)
  obtain ⟨l1, s1, v1, k1, x1⟩ := lin_step n junk f l0 1 a1 ha1 la1 (by simp [slot]; omega)
    ((k0 1 (by simp [slot])).2) x0
  have i0 : slot 0 = 0 := rfl
  have i1 : slot 1 = 1 := rfl
  have i2 : slot 2 = 2 := rfl
  have key : ∃ l, [0, 1, 2, 3].foldlM (readLin n junk f) ⟨fun _ => (0, 0), false, fun _ => (0, 0)⟩ = some l ∧ nspecies f = n ∧
      ∀ R T (s : Fin 4) a, f.q s = some a → linQ R l s T = fileQ R a T := by
    rcases h.size with rfl | rfl
    · have h2 : f.q 2 = none := h.rest 2 (by simp)
      refine ⟨l1, by simp [s0, s1, lin_skip 2 junk f _ 2 h2, lin_skip 2 junk f _ 3 h3], by simp [nspecies, ha0, ha1, h2, h3], ?_⟩
      intro R T s a ha
      fin_cases s
      · have := ha0.symm.trans ha
        rw [Option.some.injEq] at this
        rw [← this]
        exact ((k1 0 (by simp [slot])).1 R T).trans (v0 R T)
      · have := ha1.symm.trans ha
        rw [Option.some.injEq] at this
        rw [← this]
        exact v1 R T
      · have := h2.symm.trans ha; cases this
      · have := h3.symm.trans ha; cases this
    · obtain ⟨a2, ha2, la2⟩ := h.q 2 (by simp)
      obtain ⟨l2, s2, v2, k2, -⟩ := lin_step 3 junk f l1 2 a2 ha2 la2 (by simp [slot])
        (((k1 2 (by simp [slot])).2).trans (k0 2 (by simp [slot])).2) x1
      refine ⟨l2, by simp [s0, s1, s2, lin_skip 3 junk f _ 3 h3], by simp [nspecies, ha0, ha1, ha2, h3], ?_⟩
      intro R T s a ha
      fin_cases s
      · have := ha0.symm.trans ha
        rw [Option.some.injEq] at this
        rw [← this]
        exact ((k2 0 (by simp [slot])).1 R T).trans (((k1 0 (by simp [slot])).1 R T).trans (v0 R T))
      · have := ha1.symm.trans ha
        rw [Option.some.injEq] at this
        rw [← this]
        exact ((k2 1 (by simp [slot])).1 R T).trans (v1 R T)
      · have := ha2.symm.trans ha
        rw [Option.some.injEq] at this
        rw [← this]
        exact v2 R T
      · have := h3.symm.trans ha; cases this
  obtain ⟨l, hl, hns, hq⟩ := key
  refine ⟨⟨l.q, l.hasExtra, l.extra, q0, q1, q2, q3⟩, ?_, ?_⟩
  · simp only [read, hns, hl, r0, r1, r2, r3]; rfl
  · intro R T
    exact ⟨fun s a ha => hq R T s a ha, ⟨(e0 R T).1, (e1 R T).1, (e2 R T).1, (e3 R T).1⟩,
      fun h3 => ⟨(e0 R T).2 h3, (e1 R T).2 h3⟩⟩

/-- **C138**: the number of species is the number of first order terms present. -/
theorem c138_count (f : File) : nspecies f = (Finset.univ.filter fun s : Fin 4 => (f.q s).isSome = true).card := by
  rw [Finset.card_filter, Fin.sum_univ_four]
  rfl

/-- **C138 violated**: a fourth species (`qD`) replaces the first order term of the first one. -/
theorem c138_violation_fourth (junk : ℝ) (f : File) (p : MobParams) (x y : ℝ) (hd : f.q 3 = some [x, y])
    (h : read junk f = some p) : p.q 0 = (x, y) := by
  simp only [read, List.foldlM_cons, List.foldlM_nil, Option.bind_eq_bind, Option.bind_eq_some_iff] at h
  obtain ⟨l, ⟨l0, -, l1, -, l2, -, l3, h3, hl⟩, q0, -, q1, -, q2, -, q3, -, hp⟩ := h
  have e : p.q = l.q := by
    have : (⟨l.q, l.hasExtra, l.extra, q0, q1, q2, q3⟩ : MobParams) = p := Option.some.inj hp
    rw [← this]
  have e2 : l3 = l := Option.some.inj hl
  rw [e, ← e2]
  simp only [readLin, hd] at h3
  split at h3
  · rw [← Option.some.inj h3]
    simp [slot]
  · cases h3

/-- **C138 violated**: terms for the first and third species only: the vector is too short, nothing is read. -/
theorem c138_violation_gap (junk : ℝ) (f : File) (h1 : f.q 1 = none) (h2 : (f.q 2).isSome) (h3 : f.q 3 = none) :
    read junk f = none := by
  obtain ⟨a, ha⟩ := Option.isSome_iff_exists.mp h2
  have hn : nspecies f ≤ 2 := by
    unfold nspecies
    rw [h1, h3]
    by_cases h0 : (f.q 0).isSome = true <;> simp [h0, ha]
  have hs : ∀ l, readLin (nspecies f) junk f l 2 = none := by
    intro l
    have : ¬ (2 ≤ a.length ∧ a.length ≤ 4 ∧ slot 2 < nspecies f) := by
      rintro ⟨-, -, h⟩
      simp [slot] at h
      omega
    simp only [readLin, ha, if_neg this]
  unfold read
  simp only [List.foldlM_cons, List.foldlM_nil, Option.bind_eq_bind, hs]
  cases readLin (nspecies f) junk f ⟨fun _ => (0, 0), false, fun _ => (0, 0)⟩ 0 with
  | none => rfl
  | some l =>
    simp only [Option.bind_some]
    cases readLin (nspecies f) junk f l 1 <;> rfl

/-- **C138 violated**: three entries instead of four: the last one is whatever the memory held. -/
theorem c138_violation_three (n : ℕ) (junk x y z : ℝ) (f : File) (l : Lin) (s : Fin 4) (hs : slot s < n) (ha : f.q s = some [x, y, z]) :
    ∃ l', readLin n junk f l s = some l' ∧ l'.extra (slot s) = (z, junk) := by
  refine ⟨_, by simp only [readLin, ha]; rw [if_pos]; exact ⟨by simp, by simp, hs⟩, ?_⟩
  simp

/-- **C138 violated** for three species: the interaction terms of order two and three are read and have no effect. -/
theorem c138_violation_ternary (R : ℝ) (p : MobParams) (q2 q3 : ℕ → ℕ → ℝ × ℝ) (c0 c1 c2 T : ℝ) :
    deltaG3 R { p with qq2 := q2, qq3 := q3 } c0 c1 c2 T = deltaG3 R p c0 c1 c2 T := rfl

/-! ## The table -/

/-- Temperatures of the table: 100 of them, evenly from half to twice the temperature of the run. -/
theorem c138_temperatures (T : ℝ) (hT : 0 < T) : temperature (T * 0.5) (T * 2) 0 = T / 2 ∧ temperature (T * 0.5) (T * 2) 99 = 2 * T ∧
    ∀ i < 100, T / 2 ≤ temperature (T * 0.5) (T * 2) i ∧ temperature (T * 0.5) (T * 2) i ≤ 2 * T := by
  unfold temperature
  refine ⟨by push_cast; ring, by push_cast; ring, fun i hi => ?_⟩
  have h0 : (0 : ℝ) ≤ i := Nat.cast_nonneg i
  have h1 : (i : ℝ) ≤ 99 := by exact_mod_cast Nat.le_of_lt_succ hi
  constructor <;> nlinarith

/-- **C138**: an entry of a table is `b exp (a / (R T))` with the two numbers `[a, b]` of the file for the first species
(the diffusion of the species of the table in the pure first component). -/
theorem c138_entry (R T a b : ℝ) (hR : 0 < R) (hT : 0 < T) (hb : 0 < b) (p : MobParams) (hq : getQ R p 0 T = fileQ R [a, b] T) :
    atomicMobility R (deltaG2 R p 1 0 T) T * T * R = b * Real.exp (a / (R * T)) := by
  have hd : deltaG2 R p 1 0 T = a + R * T * Real.log b := by
    unfold deltaG2
    rw [hq]
    simp [fileQ]
  have hRT : R * T ≠ 0 := by positivity
  rw [hd]
  unfold atomicMobility
  have e : (a + R * T * Real.log b) * (1 / (R * T)) = Real.log b + a / (R * T) := by field_simp; ring
  rw [e, Real.exp_add, Real.exp_log hb]
  field_simp

/-- Diffusion coefficient as a function of temperature. -/
noncomputable def diffusion (R : ℝ) (p : MobParams) (T : ℝ) : ℝ := atomicMobility R (deltaG2 R p 1 0 T) T * T * R

/-- **C138**: the blocks titled liquid species 0, solid species 0, solid species 1 show these. -/
theorem c138_table_partial (R T : ℝ) (l0 l1 a0 a1 : MobParams) :
    let curve := fun p => (List.range 100).map fun i =>
      (10000 / temperature (T * 0.5) (T * 2) i, diffusion R p (temperature (T * 0.5) (T * 2) i))
    (table R T l0 l1 a0 a1)[0]? = some (curve l0) ∧ (table R T l0 l1 a0 a1)[2]? = some (curve a0) ∧
      (table R T l0 l1 a0 a1)[3]? = some (curve a1) := ⟨rfl, rfl, rfl⟩

/-- **C138 violated**: the block titled liquid species 1 shows species 0; it is right exactly if both have the same diffusion
coefficient at all temperatures of the table. -/
theorem c138_violation_liquid (R T : ℝ) (l0 l1 a0 a1 : MobParams) :
    (table R T l0 l1 a0 a1)[1]? = some ((List.range 100).map fun i =>
      (10000 / temperature (T * 0.5) (T * 2) i, diffusion R l1 (temperature (T * 0.5) (T * 2) i))) ↔
    ∀ i < 100, diffusion R l0 (temperature (T * 0.5) (T * 2) i) = diffusion R l1 (temperature (T * 0.5) (T * 2) i) := by
  have e : (table R T l0 l1 a0 a1)[1]? = some ((List.range 100).map fun i =>
      (10000 / temperature (T * 0.5) (T * 2) i, diffusion R l0 (temperature (T * 0.5) (T * 2) i))) := rfl
  rw [e, Option.some.injEq, List.map_inj_left]
  simp only [List.mem_range, Prod.mk.injEq, true_and]

/-! ## Instances -/

/-- Two species, one with extra entries, one interaction term. -/
def exFile : File where
  q s := if s = 0 then some [-30000, 1e-7] else if s = 1 then some [-40000, 2e-7, 1, 2] else none
  qq k j := if k = 0 ∧ j = 0 then some [100, 1] else none

example : Proper exFile 2 where
  size := Or.inl rfl
  q s hs := by fin_cases s <;> simp_all [exFile]
  rest s hs := by fin_cases s <;> simp_all [exFile]
  qq k j a h := by
    unfold exFile at h
    simp only at h
    split at h
    · rw [← Option.some.inj h]; rfl
    · cases h

/-- Two liquids with different diffusion: the second block is wrong. -/
example : ∃ l0 l1 : MobParams, ¬ ∀ i < 100, diffusion 1 l0 (temperature (1 * 0.5) (1 * 2) i) = diffusion 1 l1 (temperature (1 * 0.5) (1 * 2) i) := by
  have z : MobParams := ⟨fun _ => (0, 1), false, fun _ => (0, 0), fun _ _ => (0, 1), fun _ _ => (0, 1), fun _ _ => (0, 1), fun _ _ => (0, 1)⟩
  refine ⟨{ z with q := fun _ => (0, 1), hasExtra := false }, { z with q := fun _ => (0, 2), hasExtra := false }, fun h => ?_⟩
  have h0 := h 0 (by norm_num)
  have hT : (0 : ℝ) < temperature (1 * 0.5) (1 * 2) 0 := by norm_num [temperature]
  unfold diffusion at h0
  rw [c138_entry 1 _ 0 1 one_pos hT one_pos _ (by simp [getQ, fileQ]),
    c138_entry 1 _ 0 2 one_pos hT two_pos _ (by simp [getQ, fileQ])] at h0
  simp at h0

end AMPE.MobilityFile.Props
