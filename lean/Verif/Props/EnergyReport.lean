import Verif.Model.EnergyReport
import Mathlib.Tactic.Linarith
import Mathlib.Tactic.Ring
import Mathlib.Tactic.NormNum
import Mathlib.Tactic.Positivity
import Mathlib.Algebra.BigOperators.Group.List.Basic

/-!
# Energy diagnostics: C65 (parts add up, nothing depends on the patches), C66 (energy density field)
-/

namespace AMPE.EnergyReport.Props

open AMPE.EnergyReport

variable {ι : Type} [DecidableEq ι]

/-! ## Specification -/

/-- Integral of a density over the cells of a patch, over a list of patches. -/
def integral (P : EPatch ι) (e : ι → ℝ) : ℝ := (P.cells.map fun c => e c * P.weight c).sum

/-- Energy of a patch: all its parts. -/
def patchEnergy (mis : Bool) (P : EPatch ι) : ℝ :=
  integral P P.iface + (if mis then integral P P.orient + integral P P.qint else 0) + integral P P.well + integral P P.bulk

/-! ## Helpers -/

theorem addLoop_eq (perCell : Bool) (w e : ι → ℝ) (cells : List ι) (s : ℝ × ℝ × (ι → ℝ)) :
    (addLoop perCell w e cells s).1 = s.1 + (cells.map fun c => e c * w c).sum ∧
    (addLoop perCell w e cells s).2.1 = s.2.1 + (cells.map fun c => e c * w c).sum := by
  induction cells generalizing s with
  | nil => simp [addLoop]
  | cons c cs ih =>
    have := ih (s.1 + e c * w c, s.2.1 + e c * w c, if perCell then addC s.2.2 c (e c) else s.2.2)
    simp only [addLoop, List.foldl_cons, List.map_cons, List.sum_cons] at this ⊢
    constructor
    · rw [this.1]; ring
    · rw [this.2]; ring

theorem addLoop_dens (w e : ι → ℝ) (cells : List ι) (hn : cells.Nodup) (s : ℝ × ℝ × (ι → ℝ)) (c : ι) :
    (addLoop true w e cells s).2.2 c = s.2.2 c + if c ∈ cells then e c else 0 := by
  induction cells generalizing s with
  | nil => simp [addLoop]
  | cons d cs ih =>
    rw [List.nodup_cons] at hn
    have := ih hn.2 (s.1 + e d * w d, s.2.1 + e d * w d, addC s.2.2 d (e d))
    simp only [addLoop, List.foldl_cons, if_true] at this ⊢
    rw [this]
    simp only [addC, List.mem_cons]
    by_cases h : c = d
    · subst h; simp [hn.1]
    · simp [h]

/-- What one patch does to the totals. -/
theorem evaluatePatch_totals (three mis perCell : Bool) (P : EPatch ι) (t : Totals) (dens : ι → ℝ) :
    (evaluatePatch three mis perCell P t dens).1 =
      { energy := t.energy + patchEnergy mis P
        phase := t.phase + integral P P.iface
        orient := if mis then (if three then 0 else t.orient) + integral P P.orient else t.orient
        qint := if mis then (if three then 0 else t.qint) + integral P P.qint else t.qint
        well := integral P P.well
        free := integral P P.bulk } := by
  have A := fun (e : ι → ℝ) s => (addLoop_eq perCell P.weight e P.cells s).1
  have B := fun (e : ι → ℝ) s => (addLoop_eq perCell P.weight e P.cells s).2
  cases three <;> cases mis <;>
    simp only [evaluatePatch, bulkenergy, quatenergy2, quatenergy3, ifaceEnergy, patchEnergy, integral, A, B,
      Bool.false_eq_true, if_true, if_false, zero_add, add_zero] <;>
    (ext <;> simp only <;> ring)

/-! ## C65 -/

/-- **C65**: on every process the total energy is the integral of all parts over all its patches, and the interface part the
integral of the interface energy; whatever the dimension. -/
theorem c65_total (three mis perCell : Bool) (ps : List (EPatch ι)) :
    (evaluateRank three mis perCell ps).energy = (ps.map (patchEnergy mis)).sum ∧
    (evaluateRank three mis perCell ps).phase = (ps.map fun P => integral P P.iface).sum := by
  have key : ∀ t : Totals, (ps.foldl (fun t P => (evaluatePatch three mis perCell P t (fun _ => 0)).1) t).energy
      = t.energy + (ps.map (patchEnergy mis)).sum ∧
      (ps.foldl (fun t P => (evaluatePatch three mis perCell P t (fun _ => 0)).1) t).phase
      = t.phase + (ps.map fun P => integral P P.iface).sum := by
    induction ps with
    | nil => simp
    | cons P ps ih =>
      intro t
      have := ih (evaluatePatch three mis perCell P t (fun _ => 0)).1
      simp only [List.foldl_cons, List.map_cons, List.sum_cons]
      rw [this.1, this.2, evaluatePatch_totals]
      constructor <;> simp only <;> ring
  have := key ⟨0, 0, 0, 0, 0, 0⟩
  simpa [evaluateRank] using this

/-- **C65**: in 2D the orientation parts are integrals over all patches, too. -/
theorem c65_orient_2d (perCell : Bool) (ps : List (EPatch ι)) :
    (evaluateRank false true perCell ps).orient = (ps.map fun P => integral P P.orient).sum ∧
    (evaluateRank false true perCell ps).qint = (ps.map fun P => integral P P.qint).sum := by
  have key : ∀ t : Totals, (ps.foldl (fun t P => (evaluatePatch false true perCell P t (fun _ => 0)).1) t).orient
      = t.orient + (ps.map fun P => integral P P.orient).sum ∧
      (ps.foldl (fun t P => (evaluatePatch false true perCell P t (fun _ => 0)).1) t).qint
      = t.qint + (ps.map fun P => integral P P.qint).sum := by
    induction ps with
    | nil => simp
    | cons P ps ih =>
      intro t
      have := ih (evaluatePatch false true perCell P t (fun _ => 0)).1
      simp only [List.foldl_cons, List.map_cons, List.sum_cons]
      rw [this.1, this.2, evaluatePatch_totals]
      constructor <;> simp <;> ring
  have := key ⟨0, 0, 0, 0, 0, 0⟩
  simpa [evaluateRank] using this

/-- The other totals of a process come from its last patch. -/
theorem last_patch (three mis perCell : Bool) (ps : List (EPatch ι)) (P : EPatch ι) :
    (evaluateRank three mis perCell (ps ++ [P])).well = integral P P.well ∧
    (evaluateRank three mis perCell (ps ++ [P])).free = integral P P.bulk ∧
    (evaluateRank true true perCell (ps ++ [P])).orient = integral P P.orient ∧
    (evaluateRank true true perCell (ps ++ [P])).qint = integral P P.qint := by
  simp only [evaluateRank, List.foldl_append, List.foldl_cons, List.foldl_nil, evaluatePatch_totals, if_true, zero_add,
    and_self]

/-- **C65 is violated**: the well and free energies reported are those of the last patch of each process, so the parts fall
short of the total by the well and free energies of all other patches (2D). -/
theorem c65_violation_2d (perCell : Bool) (ps : List (EPatch ι)) (P : EPatch ι) :
    let t := evaluateRank false true perCell (ps ++ [P])
    t.well = integral P P.well ∧ t.free = integral P P.bulk ∧
    t.energy - (t.phase + t.orient + t.qint + t.well + t.free) = (ps.map fun Q => integral Q Q.well + integral Q Q.bulk).sum := by
  intro t
  obtain ⟨w, f, -, -⟩ := last_patch false true perCell ps P
  refine ⟨w, f, ?_⟩
  have e := c65_total false true perCell (ps ++ [P])
  have o := c65_orient_2d perCell (ps ++ [P])
  simp only [t]
  rw [e.1, e.2, o.1, o.2, w, f]
  simp only [List.map_append, List.sum_append, List.map_cons, List.map_nil, List.sum_cons, List.sum_nil]
  have hs : ∀ f g : EPatch ι → ℝ, (ps.map fun Q => f Q + g Q).sum = (ps.map f).sum + (ps.map g).sum := fun f g =>
    List.sum_map_add
  have pe : patchEnergy (ι := ι) true = fun Q => integral Q Q.iface + (integral Q Q.orient + integral Q Q.qint)
      + integral Q Q.well + integral Q Q.bulk := by funext Q; simp [patchEnergy]
  simp only [pe, hs]
  ring

/-- **C65 is violated** in 3D for the orientation parts as well: the parts fall short by all energies other than the
interface energy of all patches but the last. -/
theorem c65_violation_3d (perCell : Bool) (ps : List (EPatch ι)) (P : EPatch ι) :
    let t := evaluateRank true true perCell (ps ++ [P])
    t.orient = integral P P.orient ∧ t.qint = integral P P.qint ∧ t.well = integral P P.well ∧ t.free = integral P P.bulk ∧
    t.energy - (t.phase + t.orient + t.qint + t.well + t.free) =
      (ps.map fun Q => integral Q Q.orient + integral Q Q.qint + integral Q Q.well + integral Q Q.bulk).sum := by
  intro t
  obtain ⟨w, f, o, q⟩ := last_patch true true perCell ps P
  refine ⟨o, q, w, f, ?_⟩
  have e := c65_total true true perCell (ps ++ [P])
  simp only [t]
  rw [e.1, e.2, o, q, w, f]
  simp only [List.map_append, List.sum_append, List.map_cons, List.map_nil, List.sum_cons, List.sum_nil]
  have hs : ∀ f g : EPatch ι → ℝ, (ps.map fun Q => f Q + g Q).sum = (ps.map f).sum + (ps.map g).sum := fun f g =>
    List.sum_map_add
  have pe : patchEnergy (ι := ι) true = fun Q => integral Q Q.iface + (integral Q Q.orient + integral Q Q.qint)
      + integral Q Q.well + integral Q Q.bulk := by funext Q; simp [patchEnergy]
  simp only [pe, hs]
  ring

theorem evaluate_sum (three mis perCell : Bool) (ranks : List (List (EPatch ι))) (f : Totals → ℝ)
    (hf0 : f ⟨0, 0, 0, 0, 0, 0⟩ = 0) (hf : ∀ a b, f (Totals.add a b) = f a + f b) :
    f (evaluate three mis perCell ranks) = (ranks.map fun ps => f (evaluateRank three mis perCell ps)).sum := by
  unfold evaluate
  induction ranks with
  | nil => simpa using hf0
  | cons r rs ih => simp only [List.map_cons, List.foldr_cons, List.sum_cons, hf, ih]

/-- **C65**: the total energy does not depend on how the patches are distributed over the processes nor on their order. -/
theorem c65_total_distribution (three mis perCell : Bool) (ranks ranks' : List (List (EPatch ι)))
    (h : ranks.flatten.Perm ranks'.flatten) :
    (evaluate three mis perCell ranks).energy = (evaluate three mis perCell ranks').energy := by
  have e : ∀ rs : List (List (EPatch ι)), (evaluate three mis perCell rs).energy = (rs.flatten.map (patchEnergy mis)).sum := by
    intro rs
    rw [evaluate_sum three mis perCell rs Totals.energy rfl (fun _ _ => rfl)]
    simp only [(c65_total three mis perCell _).1]
    induction rs with
    | nil => rfl
    | cons r rs ih => simp only [List.map_cons, List.sum_cons, List.flatten_cons, List.map_append, List.sum_append, ih]
  rw [e, e]
  exact (h.map _).sum_eq

/-- **C65**: nor on where the patches are cut: two patches count as much as one with the cells of both. -/
theorem c65_total_cut (three mis perCell : Bool) (P : EPatch ι) (as bs : List ι)
    (hP : P.cells = as ++ bs) (ps : List (EPatch ι)) :
    (evaluateRank three mis perCell (P :: ps)).energy =
      (evaluateRank three mis perCell ({ P with cells := as } :: { P with cells := bs } :: ps)).energy := by
  rw [(c65_total three mis perCell _).1, (c65_total three mis perCell _).1]
  simp only [List.map_cons, List.sum_cons, patchEnergy, integral, hP, List.map_append, List.sum_append]
  split <;> ring

/-- **C65 is violated**: cutting a patch changes the reported well energy by the well energy of the first half. -/
theorem c65_violation_cut (three mis perCell : Bool) (P : EPatch ι) (as bs : List ι) (hP : P.cells = as ++ bs) :
    (evaluateRank three mis perCell [P]).well =
      (evaluateRank three mis perCell [{ P with cells := as }, { P with cells := bs }]).well
        + integral { P with cells := as } P.well := by
  have h1 := (last_patch three mis perCell [] P).1
  have h2 := (last_patch three mis perCell [{ P with cells := as }] { P with cells := bs }).1
  simp only [List.nil_append, List.cons_append] at h1 h2
  rw [h1, h2]
  simp only [integral, hP, List.map_append, List.sum_append]
  ring

/-- **C65** (partial): with one patch per process the parts add up to the total. -/
theorem c65_one_patch_partial (three perCell : Bool) (ranks : List (EPatch ι)) :
    let t := evaluate three true perCell (ranks.map fun P => [P])
    t.energy = t.phase + t.orient + t.qint + t.well + t.free := by
  intro t
  have e : ∀ f : Totals → ℝ, f ⟨0, 0, 0, 0, 0, 0⟩ = 0 → (∀ a b, f (Totals.add a b) = f a + f b) →
      f t = ((ranks.map fun P => [P]).map fun ps => f (evaluateRank three true perCell ps)).sum := fun f h0 h =>
    evaluate_sum three true perCell _ f h0 h
  have := e (fun t => t.energy - (t.phase + t.orient + t.qint + t.well + t.free)) (by norm_num)
    (by intro a b; simp only [Totals.add]; ring)
  have z : ((ranks.map fun P => [P]).map fun ps => (fun t : Totals => t.energy - (t.phase + t.orient + t.qint + t.well + t.free))
      (evaluateRank three true perCell ps)) = ranks.map fun _ => (0 : ℝ) := by
    rw [List.map_map]
    refine List.map_congr_left fun P _ => ?_
    simp only [Function.comp_apply, evaluateRank, List.foldl_cons, List.foldl_nil, evaluatePatch_totals, if_true, patchEnergy]
    cases three <;> simp <;> ring
  rw [z] at this
  simp at this
  linarith

/-! ## C66 -/

/-- **C66**: the energy density written for visualisation is in every cell of the patch the sum of all parts, whatever was
there before, and it integrates to the energy of the patch. -/
theorem c66_density (three mis : Bool) (P : EPatch ι) (hn : P.cells.Nodup) (t : Totals) (dens : ι → ℝ) :
    (∀ c ∈ P.cells, (evaluatePatch three mis true P t dens).2 c =
      P.iface c + (if mis then P.orient c + P.qint c else 0) + P.well c + P.bulk c) ∧
    integral P (evaluatePatch three mis true P t dens).2 = patchEnergy mis P := by
  have h1 : ∀ c ∈ P.cells, (evaluatePatch three mis true P t dens).2 c =
      P.iface c + (if mis then P.orient c + P.qint c else 0) + P.well c + P.bulk c := by
    intro c hc
    have D := fun (e : ι → ℝ) s => addLoop_dens P.weight e P.cells hn s c
    cases three <;> cases mis <;>
      simp only [evaluatePatch, bulkenergy, quatenergy2, quatenergy3, ifaceEnergy, D, Bool.false_eq_true, if_true, if_false,
        hc] <;> ring
  refine ⟨h1, ?_⟩
  have : integral P (evaluatePatch three mis true P t dens).2 = integral P fun c =>
      P.iface c + (if mis then P.orient c + P.qint c else 0) + P.well c + P.bulk c := by
    unfold integral
    congr 1
    refine List.map_congr_left fun c hc => ?_
    rw [h1 c hc]
  rw [this]
  unfold patchEnergy integral
  have hs : ∀ f g : ι → ℝ, (P.cells.map fun c => f c + g c).sum = (P.cells.map f).sum + (P.cells.map g).sum := fun f g =>
    List.sum_map_add
  cases mis <;> simp only [Bool.false_eq_true, if_true, if_false, add_mul, hs, zero_mul] <;> simp

/-- **C66**: without per-cell output the field is left alone and the totals are the same. -/
theorem c66_off (three mis : Bool) (P : EPatch ι) (t : Totals) (dens : ι → ℝ) :
    (evaluatePatch three mis false P t dens).2 = dens ∧
    (evaluatePatch three mis false P t dens).1 = (evaluatePatch three mis true P t dens).1 := by
  constructor
  · have D : ∀ (e : ι → ℝ) s, (addLoop false P.weight e P.cells s).2.2 = s.2.2 := by
      intro e s
      unfold addLoop
      induction P.cells generalizing s with
      | nil => rfl
      | cons c cs ih => simp only [List.foldl_cons]; exact ih _
    cases three <;> cases mis <;>
      simp only [evaluatePatch, bulkenergy, quatenergy2, quatenergy3, ifaceEnergy, D, Bool.false_eq_true, if_true, if_false]
  · rw [evaluatePatch_totals, evaluatePatch_totals]

/-- **C66 is violated** with rigid-body motion: the field holds afterwards the energy of the last order parameter with itself,
`gamma m/2 phi_n⁴`, not the energy density nor the sum over the pairs. -/
theorem c66_violation_rigid_body (n : ℕ) (gamma m : ℝ) (phi : ℕ → ι → ℝ) (c : ι) :
    phiphiDensity (n + 1) gamma m phi c = gamma * m / 2 * phi n c ^ 4 := by
  unfold phiphiDensity
  rw [List.range_succ, List.flatMap_append, List.foldl_append]
  simp only [List.flatMap_cons, List.flatMap_nil, List.append_nil, List.map_append, List.foldl_append, List.map_cons,
    List.map_nil, List.foldl_cons, List.foldl_nil]
  ring

/-- **C66**: in 2D the orientation energy of a cell is the mean over its four faces, so seeing the sample in a mirror in
either direction (exchange of the lower and the upper face) does not change it. -/
theorem c66_orient_2d (fl T H gx gx1 gy gy1 wx wx1 wy wy1 : ℝ) :
    orientCell2 fl T H gx gx1 gy gy1 wx wx1 wy wy1 = T * H * ((Real.sqrt (gx + fl) * wx + Real.sqrt (gx1 + fl) * wx1
      + Real.sqrt (gy + fl) * wy + Real.sqrt (gy1 + fl) * wy1) / 4) ∧
    orientCell2 fl T H gx1 gx gy gy1 wx1 wx wy wy1 = orientCell2 fl T H gx gx1 gy gy1 wx wx1 wy wy1 ∧
    orientCell2 fl T H gx gx1 gy1 gy wx wx1 wy1 wy = orientCell2 fl T H gx gx1 gy gy1 wx wx1 wy wy1 := by
  unfold orientCell2
  refine ⟨by ring, by ring, by ring⟩

/-- **C66** (partial): in 3D the mean over the six faces without gradient floor. -/
theorem c66_orient_3d_partial (T H gx gx1 gy gy1 gz gz1 wx wx1 wy wy1 wz wz1 : ℝ) :
    orientCell3 0 T H gx gx1 gy gy1 gz gz1 wx wx1 wy wy1 wz wz1 = T * H * ((Real.sqrt gx * wx + Real.sqrt gx1 * wx1
      + Real.sqrt gy * wy + Real.sqrt gy1 * wy1 + Real.sqrt gz * wz + Real.sqrt gz1 * wz1) / 6) := by
  unfold orientCell3
  simp only [add_zero]
  ring

/-- **C66** (violation, the values in 3D): the energy is the mean over the six faces, five of them with the floor; the mean with the
floor on all faces is larger where the weight of the upper y face and the prefactors are positive. -/
theorem c66_violation_value_3d (fl T H gx gx1 gy gy1 gz gz1 wx wx1 wy wy1 wz wz1 : ℝ) :
    T * H * ((Real.sqrt (gx + fl) * wx + Real.sqrt (gx1 + fl) * wx1 + Real.sqrt (gy + fl) * wy + Real.sqrt (gy1 + fl) * wy1
      + Real.sqrt (gz + fl) * wz + Real.sqrt (gz1 + fl) * wz1) / 6) - orientCell3 fl T H gx gx1 gy gy1 gz gz1 wx wx1 wy wy1 wz wz1 =
      T * H * wy1 * (Real.sqrt (gy1 + fl) - Real.sqrt gy1) / 6 := by
  unfold orientCell3
  ring

/-- **C66 is violated** in 3D with a gradient floor: the upper y face lacks it.  The mirror image in y has another energy as
soon as the weights of the two y faces differ where the orientation is uniform. -/
theorem c66_violation_floor_3d (fl T H gx gx1 gz gz1 wx wx1 wy wy1 wz wz1 : ℝ) (hfl : 0 < fl) (hT : T ≠ 0) (hH : H ≠ 0) :
    orientCell3 fl T H gx gx1 0 0 gz gz1 wx wx1 wy1 wy wz wz1 = orientCell3 fl T H gx gx1 0 0 gz gz1 wx wx1 wy wy1 wz wz1 ↔
      wy = wy1 := by
  have hs : 0 < Real.sqrt fl := Real.sqrt_pos.mpr hfl
  unfold orientCell3
  simp only [zero_add, Real.sqrt_zero, zero_mul, add_zero]
  constructor
  · intro h
    have : T * H * (Real.sqrt fl * (wy1 - wy)) = 0 := by linarith
    rcases mul_eq_zero.mp this with h | h
    · exact absurd h (mul_ne_zero hT hH)
    · rcases mul_eq_zero.mp h with h | h
      · exact absurd h hs.ne'
      · linarith
  · rintro rfl; rfl

/-! ## Non-vacuity -/

/-- Two patches of one cell each, well energy one in both: the report shows one, the total has two. -/
example : ∃ P Q : EPatch ℕ, (evaluateRank false false false [P, Q]).well = 1 ∧
    (evaluateRank false false false [P, Q]).energy = 2 := by
  let P : EPatch ℕ := ⟨[0], fun _ => 1, fun _ => 0, fun _ => 0, fun _ => 0, fun _ => 1, fun _ => 0⟩
  refine ⟨P, P, ?_, ?_⟩
  · rw [show [P, P] = [P] ++ [P] from rfl, (last_patch false false false [P] P).1]; norm_num [integral, P]
  · rw [(c65_total false false false [P, P]).1]; norm_num [patchEnergy, integral, P]

end AMPE.EnergyReport.Props
