import Verif.Model.DiffCoeff
import Verif.Props.Functions
import Verif.Props.Flux
import Mathlib.Tactic.Linarith
import Mathlib.Tactic.Ring
import Mathlib.Tactic.NormNum
import Mathlib.Tactic.Positivity
import Mathlib.Tactic.FieldSimp
import Mathlib.Tactic.LinearCombination

/-!
# Solute diffusion coefficients: C60 (law on faces), C61 (interface diffusion), C62 (entries read and written)
-/

namespace AMPE.DiffCoeff.Props

open AMPE.Functions AMPE.Functions.Props AMPE.Flux AMPE.Flux.Props AMPE.DiffCoeff

/-! ## Specification: moving the sample -/

/-- The sample turned about the diagonal. -/
def turned (u : Field2) : Field2 := fun i j => u j i
/-- The sample seen in a mirror in the first direction (face `0` is fixed). -/
def mirrored (u : Field2) : Field2 := fun i j => u (-1 - i) j
/-- The 3D sample with the first two, resp. the first and the last axes exchanged. -/
def turnedXY (u : Field3) : Field3 := fun i j k => u j i k
def turnedXZ (u : Field3) : Field3 := fun i j k => u k j i

/-! ## Helpers -/

theorem avgP_swap (at_ : Char) (p : Pair) : avgP at_ p.swap = avgP at_ p := (c13_symmetric at_ _ _).1

theorem rate_swap (R : ℝ) (m : Arrhenius) (t : Pair) : rate R m t.swap = rate R m t := by
  simp [rate, add_comm]

theorem sumAvg_swap (at_ : Char) (ps : List Pair) : sumAvg at_ (ps.map Prod.swap) = sumAvg at_ ps := by
  unfold sumAvg
  generalize (0 : ℝ) = s0
  induction ps generalizing s0 with
  | nil => rfl
  | cons p ps ih =>
    simp only [List.map_cons, List.foldlM_cons, avgP_swap]
    cases avgP at_ p with
    | none => rfl
    | some a => exact ih _

theorem lastAvg_swap (at_ : Char) (ps : List Pair) : lastAvg at_ (ps.map Prod.swap) = lastAvg at_ ps := by
  unfold lastAvg
  generalize (0 : ℝ) = s0
  induction ps generalizing s0 with
  | nil => rfl
  | cons p ps ih =>
    simp only [List.map_cons, List.foldlM_cons, avgP_swap]
    cases avgP at_ p with
    | none => rfl
    | some a => exact ih _

theorem X_mirrored (u : Field2) (i j : ℤ) : X (mirrored u) i j = (X u (-i) j).swap := by
  simp only [X, mirrored, Prod.swap]
  congr 2 <;> ring

theorem twoPhase_swap (it at_ : Char) (R : ℝ) (l s : Arrhenius) (p t : Pair) :
    twoPhase it at_ R l s p.swap t.swap = twoPhase it at_ R l s p t := by
  simp only [twoPhase, avgP_swap, rate_swap]

theorem multi_swap (it at_ : Char) (R : ℝ) (l s : Arrhenius) (ps : List Pair) (p t : Pair) :
    multi it at_ R l s (ps.map Prod.swap) p.swap t.swap = multi it at_ R l s ps p t := by
  simp only [multi, avgP_swap, rate_swap, sumAvg_swap]

theorem three_swap (it at_ : Char) (R : ℝ) (l a b : Arrhenius) (pa pb : List Pair) (p t : Pair) :
    three (sumAvg at_) it at_ R l a b (pa.map Prod.swap) (pb.map Prod.swap) p.swap t.swap =
      three (sumAvg at_) it at_ R l a b pa pb p t := by
  simp only [three, avgP_swap, rate_swap, sumAvg_swap]

/-! ## C60 -/

/-- **C60**: turning the 2D sample turns the coefficients with it: two-phase (Arrhenius and constant) and
three-phase coefficients. -/
theorem c60_turned_2d (it at_ : Char) (R dl ds : ℝ) (l a b : Arrhenius) (pa pb : List Field2) (phi temp : Field2)
    (i j : ℤ) :
    twoPhaseY it at_ R l a phi temp i j = twoPhaseX it at_ R l a (turned phi) (turned temp) j i ∧
    scalarY it at_ dl ds phi i j = scalarX it at_ dl ds (turned phi) j i ∧
    threeY it at_ R l a b pa pb phi temp i j =
      threeX it at_ R l a b (pa.map turned) (pb.map turned) (turned phi) (turned temp) j i := by
  refine ⟨rfl, rfl, ?_⟩
  unfold threeY threeX
  rw [List.map_map, List.map_map]
  rfl

/-- **C60**: the same in 3D, for the two-phase coefficient in all directions and for the three-phase one in the first
two. -/
theorem c60_turned_3d (it at_ : Char) (R : ℝ) (l a b : Arrhenius) (pa pb : List Field3) (phi temp : Field3)
    (i j k : ℤ) :
    twoPhaseY3 it at_ R l a phi temp i j k = twoPhaseX3 it at_ R l a (turnedXY phi) (turnedXY temp) j i k ∧
    twoPhaseZ3 it at_ R l a phi temp i j k = twoPhaseX3 it at_ R l a (turnedXZ phi) (turnedXZ temp) k j i ∧
    threeY3 it at_ R l a b pa pb phi temp i j k =
      threeX3 it at_ R l a b (pa.map turnedXY) (pb.map turnedXY) (turnedXY phi) (turnedXY temp) j i k := by
  refine ⟨rfl, rfl, ?_⟩
  unfold threeY3 threeX3
  rw [List.map_map, List.map_map]
  rfl

/-- **C60**: the coefficients of the sample seen in a mirror are the mirror image of the coefficients. -/
theorem c60_mirrored (it at_ : Char) (R dl ds : ℝ) (l a b : Arrhenius) (pa pb : List Field2) (phi temp : Field2)
    (i j : ℤ) :
    twoPhaseX it at_ R l a (mirrored phi) (mirrored temp) i j = twoPhaseX it at_ R l a phi temp (-i) j ∧
    scalarX it at_ dl ds (mirrored phi) i j = scalarX it at_ dl ds phi (-i) j ∧
    multiX it at_ R l a (pa.map mirrored) (mirrored phi) (mirrored temp) i j =
      multiX it at_ R l a pa phi temp (-i) j ∧
    threeX it at_ R l a b (pa.map mirrored) (pb.map mirrored) (mirrored phi) (mirrored temp) i j =
      threeX it at_ R l a b pa pb phi temp (-i) j := by
  have e : ∀ ps : List Field2, (ps.map mirrored).map (fun u => X u i j) = (ps.map fun u => X u (-i) j).map Prod.swap := by
    intro ps
    rw [List.map_map, List.map_map]
    exact List.map_congr_left fun u _ => X_mirrored u i j
  refine ⟨?_, ?_, ?_, ?_⟩
  · simp only [twoPhaseX, X_mirrored, twoPhase_swap]
  · simp only [scalarX, scalar, X_mirrored, avgP_swap]
  · simp only [multiX, e, X_mirrored, multi_swap]
  · simp only [threeX, e, X_mirrored, three_swap]

/-- **C60**: a coefficient grows with temperature and never exceeds its prefactor. -/
theorem c60_arrhenius (R : ℝ) (hR : 0 < R) (m : Arrhenius) (h0 : 0 ≤ m.d0) (hq : 0 ≤ m.q0) (t t' : Pair)
    (ht : 0 < t.1) (ht2 : 0 < t.2) (h1 : t.1 ≤ t'.1) (h2 : t.2 ≤ t'.2) :
    0 ≤ rate R m t ∧ rate R m t ≤ rate R m t' ∧ rate R m t ≤ m.d0 := by
  unfold rate
  have hq' : 0 ≤ m.q0 / R := by positivity
  refine ⟨by positivity, ?_, ?_⟩
  · refine mul_le_mul_of_nonneg_left (Real.exp_le_exp.mpr ?_) h0
    have : 2 / (t'.1 + t'.2) ≤ 2 / (t.1 + t.2) := by
      apply div_le_div_of_nonneg_left <;> linarith
    nlinarith
  · have : Real.exp (-(m.q0 / R) * (2 / (t.1 + t.2))) ≤ 1 := by
      rw [Real.exp_le_one_iff]
      have : 0 ≤ m.q0 / R * (2 / (t.1 + t.2)) := by positivity
      linarith
    nlinarith

/-- Values allowed for the phase on both sides of a face. -/
def Unit2 (p : Pair) : Prop := (0 ≤ p.1 ∧ p.1 ≤ 1) ∧ (0 ≤ p.2 ∧ p.2 ≤ 1)

theorem face_weight (it at_ : Char) (hit : it ∈ proper) (hat : at_ = 'a' ∨ at_ = 'h') (p : Pair) (hp : Unit2 p) :
    ∃ v h, avgP at_ p = some v ∧ interpFunc it v = some h ∧ 0 ≤ h ∧ h ≤ 1 := by
  obtain ⟨v, hv⟩ := Option.isSome_iff_exists.mp ((c13_symmetric at_ p.1 p.2).2.mpr hat)
  have hb := c13_between_nonneg at_ p.1 p.2 v hp.1.1 hp.2.1 hv
  have hv1 : v ≤ 1 := hb.2.1.trans (max_le hp.1.2 hp.2.2)
  obtain ⟨h, hh⟩ := Option.isSome_iff_exists.mp ((c10_supported_kinds it v).mpr (List.mem_cons_of_mem _ hit))
  have := c10_range it hit v h hb.1 hv1 hh
  exact ⟨v, h, hv, hh, this.1, this.2⟩

/-- **C60**: for phase values in [0, 1] the two-phase coefficient exists, its parts are non-negative and it lies between the
values of the two phases at the face temperature. -/
theorem c60_between (it at_ : Char) (hit : it ∈ proper) (hat : at_ = 'a' ∨ at_ = 'h') (R : ℝ) (l s : Arrhenius)
    (hl : 0 ≤ l.d0) (hs : 0 ≤ s.d0) (p t : Pair) (hp : Unit2 p) :
    ∃ dl ds, twoPhase it at_ R l s p t = some (dl, ds) ∧ 0 ≤ dl ∧ 0 ≤ ds ∧
      min (rate R l t) (rate R s t) ≤ dl + ds ∧ dl + ds ≤ max (rate R l t) (rate R s t) := by
  obtain ⟨v, h, hv, hh, h0, h1⟩ := face_weight it at_ hit hat p hp
  have rl : 0 ≤ rate R l t := by unfold rate; positivity
  have rs : 0 ≤ rate R s t := by unfold rate; positivity
  refine ⟨(1 - h) * rate R l t, h * rate R s t, by simp [twoPhase, hv, hh], ?_, by positivity, ?_, ?_⟩
  · exact mul_nonneg (by linarith) rl
  · rcases le_total (rate R l t) (rate R s t) with g | g <;> simp only [min_eq_left g, min_eq_right g] <;> nlinarith
  · rcases le_total (rate R l t) (rate R s t) with g | g <;> simp only [max_eq_left g, max_eq_right g] <;> nlinarith

/-- **C60**: inside one phase the coefficient is that of the phase. -/
theorem c60_pure (it at_ : Char) (hit : it ∈ proper) (hat : at_ = 'a' ∨ at_ = 'h') (R : ℝ) (l s : Arrhenius) (t : Pair) :
    twoPhase it at_ R l s (0, 0) t = some (rate R l t, 0) ∧ twoPhase it at_ R l s (1, 1) t = some (0, rate R s t) := by
  obtain ⟨e0, e1⟩ := c10_endpoints it hit
  have a0 : avgP at_ (0, 0) = some 0 := by
    rcases hat with rfl | rfl
    · simp [avgP, averageFunc]
    · simp [avgP, averageFunc, threshold_pos]
  have a1 : avgP at_ (1, 1) = some 1 := by
    refine c13_equal_values at_ 1 ?_
    rcases hat with rfl | rfl
    · exact Or.inl rfl
    · refine Or.inr ⟨rfl, ?_⟩
      unfold threshold; norm_num
  constructor
  · simp [twoPhase, a0, e0]
  · simp [twoPhase, a1, e1]

/-- **C60**: the same for constant coefficients: between those of the phases, and that of the phase inside one phase. -/
theorem c60_scalar (it at_ : Char) (hit : it ∈ proper) (hat : at_ = 'a' ∨ at_ = 'h') (dl ds : ℝ) :
    (∀ p, Unit2 p → ∃ d, scalar it at_ dl ds p = some d ∧ min dl ds ≤ d ∧ d ≤ max dl ds) ∧
    scalar it at_ dl ds (0, 0) = some dl ∧ scalar it at_ dl ds (1, 1) = some ds := by
  obtain ⟨e0, e1⟩ := c10_endpoints it hit
  have a0 : avgP at_ (0, 0) = some 0 := by
    rcases hat with rfl | rfl
    · simp [avgP, averageFunc]
    · simp [avgP, averageFunc, threshold_pos]
  have a1 : avgP at_ (1, 1) = some 1 := by
    refine c13_equal_values at_ 1 ?_
    rcases hat with rfl | rfl
    · exact Or.inl rfl
    · refine Or.inr ⟨rfl, ?_⟩
      unfold threshold; norm_num
  refine ⟨fun p hp => ?_, by simp [scalar, a0, e0], by simp [scalar, a1, e1]⟩
  obtain ⟨v, h, hv, hh, h0, h1⟩ := face_weight it at_ hit hat p hp
  refine ⟨(1 - h) * dl + h * ds, by simp [scalar, hv, hh], ?_, ?_⟩
  · rcases le_total dl ds with g | g <;> simp only [min_eq_left g, min_eq_right g] <;> nlinarith
  · rcases le_total dl ds with g | g <;> simp only [max_eq_left g, max_eq_right g] <;> nlinarith

/-- **C60 is violated** on the y faces of the coefficients for several solid order parameters: the liquid part is the one
of the cell below the face, `h(lower)·D`, where the x faces of the turned sample have `h(mean)·D`. -/
theorem c60_violation_multi_y (it : Char) (R : ℝ) (l s : Arrhenius) (sol : List Field2) (liq temp : Field2) (i j : ℤ)
    (u : ℝ × ℝ) (hu : multiY it 'a' R l s sol liq temp i j = some u) :
    ∃ hl hm, interpFunc it (liq i (j - 1)) = some hl ∧ interpFunc it ((liq i (j - 1) + liq i j) / 2) = some hm ∧
      u.1 = hl * rate R l (Y temp i j) ∧
      multiX it 'a' R l s (sol.map turned) (turned liq) (turned temp) j i = some (hm * rate R l (Y temp i j), u.2) := by
  have e1 : avgP 'a' (liq i (j - 1), liq i (j - 1)) = some (liq i (j - 1)) := c13_equal_values 'a' _ (Or.inl rfl)
  have e2 : avgP 'a' (X (turned liq) j i) = some ((liq i (j - 1) + liq i j) / 2) := by
    simp only [avgP, averageFunc, X, turned, if_true, Option.some.injEq]; ring
  have e3 : (sol.map turned).map (fun u => X u j i) = sol.map fun u => Y u i j := by rw [List.map_map]; rfl
  have e4 : X (turned temp) j i = Y temp i j := rfl
  unfold multiY multi at hu
  unfold multiX multi
  rw [e3, e4]
  cases hS : sumAvg 'a' (sol.map fun u => Y u i j) with
  | none => simp [hS] at hu
  | some v =>
    cases hI : interpFunc it v with
    | none => simp [hS, hI] at hu
    | some hs =>
      have hk : it ∈ 'c' :: proper := (c10_supported_kinds it v).mp (by rw [hI]; rfl)
      obtain ⟨hl, hhl⟩ := Option.isSome_iff_exists.mp ((c10_supported_kinds it (liq i (j - 1))).mpr hk)
      obtain ⟨hm, hhm⟩ := Option.isSome_iff_exists.mp
        ((c10_supported_kinds it ((liq i (j - 1) + liq i j) / 2)).mpr hk)
      simp [hS, hI, e1, hhl] at hu
      refine ⟨hl, hm, hhl, hhm, by rw [← hu], ?_⟩
      simp [hI, e2, hhm, ← hu]

/-- **C60 is violated**: with linear interpolation the two differ whenever the liquid fractions on the two sides of the face
differ. -/
theorem c60_violation_multi_y_linear (R : ℝ) (l s : Arrhenius) (hl : l.d0 ≠ 0) (sol : List Field2) (liq temp : Field2)
    (i j : ℤ) (h0 : 0 ≤ liq i (j - 1) ∧ liq i (j - 1) ≤ 1) (h1 : 0 ≤ liq i j ∧ liq i j ≤ 1)
    (hne : liq i (j - 1) ≠ liq i j) :
    multiY 'l' 'a' R l s sol liq temp i j ≠ multiX 'l' 'a' R l s (sol.map turned) (turned liq) (turned temp) j i := by
  intro heq
  have hS : ∀ ps : List Pair, ∃ v, sumAvg 'a' ps = some v := by
    intro ps
    unfold sumAvg
    generalize (0 : ℝ) = s0
    induction ps generalizing s0 with
    | nil => exact ⟨s0, rfl⟩
    | cons p ps ih =>
      obtain ⟨v, hv⟩ := ih (s0 + 0.5 * (p.1 + p.2))
      exact ⟨v, by simpa [List.foldlM_cons, avgP, averageFunc] using hv⟩
  have hl' : ∀ x : ℝ, 0 ≤ x → x ≤ 1 → interpFunc 'l' x = some x := by
    intro x hx hx'
    simp [interpFunc, pos, hx, hx']
  have hex : ∃ u, multiY 'l' 'a' R l s sol liq temp i j = some u := by
    obtain ⟨v, hv⟩ := hS (sol.map fun u => Y u i j)
    have e1 : avgP 'a' (liq i (j - 1), liq i (j - 1)) = some (liq i (j - 1)) := c13_equal_values 'a' _ (Or.inl rfl)
    unfold multiY multi
    simp only [hv, Option.bind_eq_bind, Option.bind_some, e1, computes_l v, hl' _ h0.1 h0.2]
    exact ⟨_, rfl⟩
  obtain ⟨u, hu⟩ := hex
  obtain ⟨a, b, ha, hb, h2, h3⟩ := c60_violation_multi_y 'l' R l s sol liq temp i j u hu
  rw [heq, h3] at hu
  rw [hl' _ h0.1 h0.2] at ha
  rw [hl' _ (by linarith) (by linarith)] at hb
  simp only [Option.some.injEq] at ha hb hu
  rw [← hu, ← ha, ← hb] at h2
  have hr : rate R l (Y temp i j) ≠ 0 := by unfold rate; exact mul_ne_zero hl (Real.exp_pos _).ne'
  have := mul_right_cancel₀ hr h2
  exact hne (by linarith)

/-- **C60 is violated** in 3D as well: on the y and z faces the coefficients do not depend at all on the liquid fraction of
the upper cell of the face. -/
theorem c60_violation_multi_3d (it at_ : Char) (R : ℝ) (l s : Arrhenius) (sol : List Field3) (liq liq' temp : Field3)
    (i j k : ℤ) (h : ∀ a b c, (a, b, c) ≠ (i, j, k) → liq a b c = liq' a b c) :
    multiY3 it at_ R l s sol liq temp i j k = multiY3 it at_ R l s sol liq' temp i j k ∧
    multiZ3 it at_ R l s sol liq temp i j k = multiZ3 it at_ R l s sol liq' temp i j k := by
  have e1 : liq i (j - 1) k = liq' i (j - 1) k := h _ _ _ (by simp)
  have e2 : liq i j (k - 1) = liq' i j (k - 1) := h _ _ _ (by simp)
  simp only [multiY3, multiZ3, e1, e2, and_self]

/-- **C60** (partial): where the liquid fraction is the same on both sides of a y face, the turned sample has the same
coefficients. -/
theorem c60_multi_y_partial (it at_ : Char) (R : ℝ) (l s : Arrhenius) (sol : List Field2) (liq temp : Field2) (i j : ℤ)
    (h : liq i (j - 1) = liq i j) :
    multiY it at_ R l s sol liq temp i j = multiX it at_ R l s (sol.map turned) (turned liq) (turned temp) j i := by
  unfold multiY multiX
  rw [List.map_map]
  simp only [Function.comp_def, X, Y, turned, h]

theorem sumAvg_append (at_ : Char) (ps : List Pair) (p : Pair) :
    sumAvg at_ (ps ++ [p]) = (sumAvg at_ ps).bind fun s => (avgP at_ p).bind fun a => some (s + a) := by
  simp [sumAvg, List.foldlM_append]

/-- **C60 is violated** on the z faces of the three-phase coefficients: of the B order parameters only the last one counts,
so they agree with the x faces of the turned sample when there is at most one, and with the x faces of the turned sample
without the others when there are more. -/
theorem c60_violation_three_z (it at_ : Char) (hat : at_ = 'a' ∨ at_ = 'h') (R : ℝ) (l a b : Arrhenius)
    (pa pb : List Field3) (u liq temp : Field3) (i j k : ℤ) :
    threeZ3 it at_ R l a b pa (pb ++ [u]) liq temp i j k =
      threeX3 it at_ R l a b (pa.map turnedXZ) [turnedXZ u] (turnedXZ liq) (turnedXZ temp) k j i := by
  have hl : ∀ (ps : List Pair) (p : Pair), lastAvg at_ (ps ++ [p]) = avgP at_ p := by
    intro ps p
    have hd : ∀ q : Pair, ∃ v, avgP at_ q = some v := fun q =>
      Option.isSome_iff_exists.mp ((c13_symmetric at_ q.1 q.2).2.mpr hat)
    unfold lastAvg
    generalize (0 : ℝ) = s0
    induction ps generalizing s0 with
    | nil => obtain ⟨v, hv⟩ := hd p; simp [hv]
    | cons q ps ih =>
      obtain ⟨v, hv⟩ := hd q
      simp only [List.cons_append, List.foldlM_cons, hv]
      exact ih v
  have hs : sumAvg at_ [X3 (turnedXZ u) k j i] = avgP at_ (Z3 u i j k) := by
    have : X3 (turnedXZ u) k j i = Z3 u i j k := rfl
    rw [this]
    unfold sumAvg
    cases hv : avgP at_ (Z3 u i j k) <;> simp [hv]
  unfold threeZ3 threeX3 three
  simp only [List.map_append, List.map_cons, List.map_nil, hl, hs]
  rw [List.map_map]
  rfl

/-- **C60** (partial): with at most one B order parameter the z faces obey the same law as the x faces. -/
theorem c60_three_z_partial (it at_ : Char) (R : ℝ) (l a b : Arrhenius) (pa pb : List Field3) (hpb : pb.length ≤ 1)
    (liq temp : Field3) (i j k : ℤ) :
    threeZ3 it at_ R l a b pa pb liq temp i j k =
      threeX3 it at_ R l a b (pa.map turnedXZ) (pb.map turnedXZ) (turnedXZ liq) (turnedXZ temp) k j i := by
  have hs : ∀ ps : List Pair, ps.length ≤ 1 → lastAvg at_ ps = sumAvg at_ ps := by
    intro ps hps
    match ps, hps with
    | [], _ => rfl
    | [p], _ => unfold lastAvg sumAvg; cases hv : avgP at_ p <;> simp [hv]
  unfold threeZ3 threeX3 three
  rw [hs _ (by simpa using hpb), List.map_map, List.map_map]
  rfl

/-- **C60**: the Beckermann coefficient lies between those of the two phases. -/
theorem c60_beckermann_between (it at_ : Char) (hit : it ∈ proper) (hat : at_ = 'a' ∨ at_ = 'h') (dl ds k : ℝ) (hk : 0 < k)
    (p : Pair) (hp : Unit2 p) :
    ∃ d, beckermann it at_ dl ds k p = some d ∧ min dl ds ≤ d ∧ d ≤ max dl ds := by
  obtain ⟨v, h, hv, hh, h0, h1⟩ := face_weight it at_ hit hat p hp
  refine ⟨ds + (dl - ds) * (1 - h) / (1 - h + k * h), by simp [beckermann, hv, hh], ?_⟩
  have hden : 0 < 1 - h + k * h := by
    rcases h1.lt_or_eq with g | g
    · nlinarith [mul_nonneg hk.le h0]
    · rw [g]; linarith
  have hw0 : 0 ≤ (1 - h) / (1 - h + k * h) := div_nonneg (by linarith) hden.le
  have hw1 : (1 - h) / (1 - h + k * h) ≤ 1 := by rw [div_le_one hden]; nlinarith [mul_nonneg hk.le h0]
  rw [mul_div_assoc]
  generalize (1 - h) / (1 - h + k * h) = w at hw0 hw1
  rcases le_total dl ds with g | g <;> simp only [min_eq_left g, min_eq_right g, max_eq_left g, max_eq_right g] <;>
    constructor <;> nlinarith

/-- **C60 is violated** by the Beckermann coefficient when the partition coefficient varies: the face uses the value of its
upper cell, so in the interface the mirror image has another coefficient unless the two cells agree. -/
theorem c60_violation_beckermann (it at_ : Char) (dl ds : ℝ) (hd : dl ≠ ds) (k phi : Field2) (i j : ℤ)
    (hk : ∀ a b, 0 < k a b) (v h : ℝ) (hv : avgP at_ (X phi (-i) j) = some v) (hh : interpFunc it v = some h)
    (h0 : 0 < h) (h1 : h < 1) :
    beckermannX it at_ dl ds (mirrored k) (mirrored phi) i j = beckermannX it at_ dl ds k phi (-i) j ↔
      k (-i - 1) j = k (-i) j := by
  have e : -1 - i = -i - 1 := by ring
  simp only [beckermannX, beckermann, X_mirrored, avgP_swap, hv, hh, Option.bind_eq_bind, Option.bind_some,
    Option.some.injEq, mirrored, e]
  have hp := hk (-i - 1) j
  have hq := hk (-i) j
  generalize k (-i - 1) j = p at hp
  generalize k (-i) j = q at hq
  constructor
  · intro g
    have h3 : (dl - ds) * (1 - h) ≠ 0 := mul_ne_zero (sub_ne_zero.mpr hd) (by linarith)
    have d1 : 1 - h + p * h ≠ 0 := by nlinarith [mul_pos hp h0]
    have d2 : 1 - h + q * h ≠ 0 := by nlinarith [mul_pos hq h0]
    have g' := add_left_cancel g
    rw [div_eq_div_iff d1 d2] at g'
    have := mul_left_cancel₀ h3 g'
    have : q * h = p * h := by linarith
    exact (mul_right_cancel₀ h0.ne' this).symm
  · rintro rfl; rfl

/-! ## C61 -/

/-- **C61**: with different phases every pair of order parameters counts once, with the same phase every unordered pair
once and no order parameter with itself. -/
theorem c61_pairs (nA nB : ℕ) :
    (phasePairs nA nB false).Nodup ∧ (phasePairs nA nB true).Nodup ∧
    (∀ a b, (a, b) ∈ phasePairs nA nB false ↔ a < nA ∧ b < nB) ∧
    (∀ a b, (a, b) ∈ phasePairs nA nB true ↔ a < nA ∧ b < nB ∧ a < b) := by
  have hnd : ∀ same, (phasePairs nA nB same).Nodup := by
    intro same
    unfold phasePairs
    rw [List.nodup_flatMap]
    refine ⟨fun a _ => ?_, ?_⟩
    · refine List.Nodup.map ?_ (List.nodup_range.filter _)
      intro b b' h; simpa using h
    · refine List.Pairwise.imp ?_ List.nodup_range
      intro a a' haa c hc hc'
      simp only [List.mem_map] at hc hc'
      obtain ⟨b, _, rfl⟩ := hc
      obtain ⟨b', _, h⟩ := hc'
      simp only [Prod.mk.injEq] at h
      exact haa h.1.symm
  refine ⟨hnd _, hnd _, ?_, ?_⟩
  · intro a b; simp [phasePairs]
  · intro a b; simp [phasePairs]

/-- **C61**: the contribution of one cell is non-negative, none outside the interface, and for two fractions adding up to at
most one it is largest, `d/2`, exactly at one half each. -/
theorem c61_pair_bound (d pa pb : ℝ) (hd : 0 < d) (hs : pa + pb ≤ 1) :
    0 ≤ dAB d pa pb ∧ dAB d pa pb ≤ d / 2 ∧ ((pa ≤ thr ∨ pb ≤ thr) → dAB d pa pb = 0) ∧
    (dAB d pa pb = d / 2 ↔ pa = 1 / 2 ∧ pb = 1 / 2) := by
  have hc : (1 / (0.5 - thr)) ^ 4 = (1 / (0.49 : ℝ)) ^ 4 := by unfold thr; norm_num
  by_cases h1 : pa > thr
  · by_cases h2 : pb > thr
    · have e : dAB d pa pb = d / 2 * (((pa - thr) * (pb - thr)) / (0.49 * 0.49)) ^ 2 := by
        unfold dAB
        rw [if_pos h1, if_pos h2, hc]
        ring
      have hx : 0 < pa - thr := by linarith
      have hy : 0 < pb - thr := by linarith
      have hxy : (pa - thr) + (pb - thr) ≤ 0.98 := by unfold thr; linarith
      have hm0 : 0 < (pa - thr) * (pb - thr) / (0.49 * 0.49) := by positivity
      have hm1 : (pa - thr) * (pb - thr) / (0.49 * 0.49) ≤ 1 := by
        rw [div_le_one (by norm_num)]
        nlinarith [sq_nonneg ((pa - thr) - (pb - thr))]
      refine ⟨by rw [e]; positivity, ?_, ?_, ?_⟩
      · rw [e]
        have : ((pa - thr) * (pb - thr) / (0.49 * 0.49)) ^ 2 ≤ 1 := by nlinarith
        nlinarith
      · rintro (h | h)
        · exact absurd h (not_le.mpr h1)
        · exact absurd h (not_le.mpr h2)
      · rw [e]
        constructor
        · intro g
          have g1 : ((pa - thr) * (pb - thr) / (0.49 * 0.49)) ^ 2 = 1 := by
            have : d / 2 * (((pa - thr) * (pb - thr) / (0.49 * 0.49)) ^ 2 - 1) = 0 := by linarith
            rcases mul_eq_zero.mp this with h | h <;> linarith
          have g2 : (pa - thr) * (pb - thr) / (0.49 * 0.49) = 1 := by nlinarith
          rw [div_eq_one_iff_eq (by norm_num)] at g2
          have g3 : ((pa - thr) - (pb - thr)) ^ 2 ≤ 0 := by nlinarith
          have g4 : (pa - thr) - (pb - thr) = 0 := by
            have := sq_nonneg ((pa - thr) - (pb - thr))
            exact pow_eq_zero_iff (two_ne_zero) |>.mp (le_antisymm g3 this)
          have g5 : pa = pb := by linarith
          subst g5
          have g6 : (pa - thr - 0.49) * (pa - thr + 0.49) = 0 := by linear_combination g2
          have g7 : pa - thr - 0.49 = 0 := by
            rcases mul_eq_zero.mp g6 with h | h
            · exact h
            · linarith
          have : pa = 1 / 2 := by unfold thr at g7; linarith
          exact ⟨this, this⟩
        · rintro ⟨rfl, rfl⟩
          unfold thr; norm_num
    · have e : dAB d pa pb = 0 := by unfold dAB; rw [if_pos h1, if_neg h2]
      rw [e]
      refine ⟨le_rfl, by positivity, fun _ => rfl, ⟨fun h => by linarith, ?_⟩⟩
      rintro ⟨_, rfl⟩; exact absurd (by unfold thr; norm_num) h2
  · have e : dAB d pa pb = 0 := by unfold dAB; rw [if_neg h1]
    rw [e]
    refine ⟨le_rfl, by positivity, fun _ => rfl, ⟨fun h => by linarith, ?_⟩⟩
    rintro ⟨rfl, _⟩; exact absurd (by unfold thr; norm_num) h1

/-- **C61**: same for the surface term of a single field. -/
theorem c61_single_bound (d c : ℝ) (hd : 0 < d) (h0 : 0 ≤ c) (h1 : c ≤ 1) :
    0 ≤ dSingle d c ∧ dSingle d c ≤ d / 2 ∧ (dSingle d c = 0 ↔ c = 0 ∨ c = 1) ∧ dSingle d (1 / 2) = d / 2 := by
  have e : dSingle d c = d / 2 * (4 * (c * (1 - c))) ^ 2 := by unfold dSingle; ring
  have hm0 : 0 ≤ 4 * (c * (1 - c)) := by have := mul_nonneg h0 (sub_nonneg.mpr h1); linarith
  have hm1 : 4 * (c * (1 - c)) ≤ 1 := by nlinarith [sq_nonneg (2 * c - 1)]
  refine ⟨by rw [e]; positivity, ?_, ?_, by unfold dSingle; ring⟩
  · rw [e]
    have : (4 * (c * (1 - c))) ^ 2 ≤ 1 := by nlinarith
    nlinarith
  · rw [e]
    constructor
    · intro h
      have h2 : (4 * (c * (1 - c))) ^ 2 = 0 := by
        rcases mul_eq_zero.mp h with h | h
        · linarith
        · exact h
      have h3 : c * (1 - c) = 0 := by
        have := pow_eq_zero_iff (two_ne_zero) |>.mp h2
        linarith
      rcases mul_eq_zero.mp h3 with h | h
      · exact Or.inl h
      · exact Or.inr (by linarith)
    · rintro (rfl | rfl) <;> ring

/-- Sum of the contributions to one face. -/
theorem scat_sum (L : List (ℤ × ℤ)) (hL : L.Nodup) (e0 e1 : ℤ) (he : (e0, e1) ≠ (0, 0)) (v : ℤ × ℤ → ℝ)
    (diff : ℤ × ℤ → ℝ) (f : ℤ × ℤ) :
    L.foldl (fun g c => addAt (addAt g (c.1, c.2) (v c)) (c.1 + e0, c.2 + e1) (v c)) diff f =
      diff f + (if f ∈ L then v f else 0) + (if (f.1 - e0, f.2 - e1) ∈ L then v (f.1 - e0, f.2 - e1) else 0) := by
  have key : ∀ (c0 : ℤ × ℤ) (P : ℤ × ℤ → Prop) [DecidablePred P] (_ : ∀ c, P c ↔ c = c0),
      (L.map fun c => if P c then v c else 0).sum = if c0 ∈ L then v c0 else 0 := by
    intro c0 P _ hP
    by_cases hm : c0 ∈ L
    · rw [if_pos hm]; exact sum_single L hL c0 hm P hP v
    · rw [if_neg hm]
      have : (L.map fun c => if P c then v c else 0) = L.map fun _ => (0 : ℝ) := by
        refine List.map_congr_left fun c hc => ?_
        rw [if_neg]
        intro h; rw [hP] at h; subst h; exact hm hc
      rw [this]; simp
  have := foldl_addAt L (fun c => (c.1, c.2)) (fun c => (c.1 + e0, c.2 + e1)) v v diff f
  rw [this, List.sum_map_add, key f (fun c => f = (c.1, c.2)) (fun c => ⟨fun h => h.symm, fun h => h.symm⟩),
    key (f.1 - e0, f.2 - e1) (fun c => f = (c.1 + e0, c.2 + e1)) ?_]
  · ring
  · intro c
    constructor
    · rintro rfl; ext <;> simp
    · rintro rfl; ext <;> simp

theorem scatX_eq (L : List (ℤ × ℤ)) (hL : L.Nodup) (v diff : ℤ × ℤ → ℝ) (i j : ℤ) :
    scatX L v diff (i, j) = diff (i, j) + (if (i, j) ∈ L then v (i, j) else 0) +
      (if (i - 1, j) ∈ L then v (i - 1, j) else 0) := by
  have := scat_sum L hL 1 0 (by simp) v diff (i, j)
  simpa [scatX] using this

theorem scatY_eq (L : List (ℤ × ℤ)) (hL : L.Nodup) (v diff : ℤ × ℤ → ℝ) (i j : ℤ) :
    scatY L v diff (i, j) = diff (i, j) + (if (i, j) ∈ L then v (i, j) else 0) +
      (if (i, j - 1) ∈ L then v (i, j - 1) else 0) := by
  have := scat_sum L hL 0 1 (by simp) v diff (i, j)
  simpa [scatY] using this

/-- x faces and y faces of a patch. -/
def FaceX (p : Patch) (i j : ℤ) : Prop := (p.lo0 ≤ i ∧ i ≤ p.hi0 + 1) ∧ (p.lo1 ≤ j ∧ j ≤ p.hi1)
def FaceY (p : Patch) (i j : ℤ) : Prop := (p.lo0 ≤ i ∧ i ≤ p.hi0) ∧ (p.lo1 ≤ j ∧ j ≤ p.hi1 + 1)

/-- **C61**: with constant interface diffusivity every face of a patch receives the contributions of both its cells, whatever
the patch; so neighbouring patches, or another decomposition, have the same coefficient on a face. -/
theorem c61_both_sides (p : Patch) (nA nB : ℕ) (same : Bool) (d : ℝ) (pa pb : ℕ → Field2) (diff : ℤ × ℤ → ℝ) (phi : Field2)
    (i j : ℤ) :
    (FaceX p i j → addAbX p nA nB same d pa pb diff (i, j) = diff (i, j)
      + cellD nA nB same (fun _ _ => d) pa pb (i, j) + cellD nA nB same (fun _ _ => d) pa pb (i - 1, j)) ∧
    (FaceY p i j → addAbY p nA nB same d pa pb diff (i, j) = diff (i, j)
      + cellD nA nB same (fun _ _ => d) pa pb (i, j) + cellD nA nB same (fun _ _ => d) pa pb (i, j - 1)) ∧
    (FaceX p i j → addSingleX p d phi diff (i, j) = diff (i, j) + dSingle d (phi i j) + dSingle d (phi (i - 1) j)) := by
  refine ⟨?_, ?_, ?_⟩
  · rintro ⟨h1, h2⟩
    unfold addAbX
    rw [scatX_eq _ (nodup_loop2 _ _ _ _), if_pos (by rw [mem_loop2]; simp only; omega),
      if_pos (by rw [mem_loop2]; simp only; omega)]
  · rintro ⟨h1, h2⟩
    unfold addAbY
    rw [scatY_eq _ (nodup_loop2 _ _ _ _), if_pos (by rw [mem_loop2]; simp only; omega),
      if_pos (by rw [mem_loop2]; simp only; omega)]
  · rintro ⟨h1, h2⟩
    unfold addSingleX
    rw [scatX_eq _ (nodup_loop2 _ _ _ _), if_pos (by rw [mem_loop2]; simp only; omega),
      if_pos (by rw [mem_loop2]; simp only; omega)]

/-- **C61**: the contribution of a cell depends on the fields in that cell only, and is zero unless at least two different
order parameters exceed the threshold there. -/
theorem c61_local (nA nB : ℕ) (same : Bool) (d d' : Field2) (pa pa' pb pb' : ℕ → Field2) (i j : ℤ) (hd : d i j = d' i j)
    (ha : ∀ a, pa a i j = pa' a i j) (hb : ∀ b, pb b i j = pb' b i j) :
    cellD nA nB same d pa pb (i, j) = cellD nA nB same d' pa' pb' (i, j) ∧
    ((∀ ab ∈ phasePairs nA nB same, pa ab.1 i j ≤ thr ∨ pb ab.2 i j ≤ thr) → cellD nA nB same d pa pb (i, j) = 0) := by
  constructor
  · unfold cellD
    simp only [hd, ha, hb]
  · intro h
    unfold cellD
    refine List.sum_eq_zero fun x hx => ?_
    obtain ⟨ab, hab, rfl⟩ := List.mem_map.mp hx
    unfold dAB
    rcases h ab hab with h | h
    · simp only [if_neg (not_lt.mpr h)]
    · simp only [gt_iff_lt, if_neg (not_lt.mpr h)]
      split <;> rfl

/-- **C61** (partial): with temperature-dependent interface diffusivity the faces inside a patch receive both
contributions. -/
theorem c61_interior_partial (p : Patch) (nA nB : ℕ) (same : Bool) (R d q : ℝ) (temp : Field2) (pa pb : ℕ → Field2)
    (diff : ℤ × ℤ → ℝ) (i j : ℤ) (hj : p.lo1 ≤ j ∧ j ≤ p.hi1) (hi : p.lo0 < i ∧ i ≤ p.hi0) :
    abTX p nA nB same R d q temp pa pb diff (i, j) = diff (i, j)
      + cellD nA nB same (factorT R d q temp) pa pb (i, j) + cellD nA nB same (factorT R d q temp) pa pb (i - 1, j) := by
  unfold abTX
  rw [scatX_eq _ (nodup_loop2 _ _ _ _), if_pos (by rw [mem_loop2]; simp only; omega),
    if_pos (by rw [mem_loop2]; simp only; omega)]

/-- **C61 is violated** at patch boundaries with temperature-dependent interface diffusivity: two patches `p` (left) and
`p'` (right) compute the coefficient of a face they share each from its own cell only; they agree if and only if both cells
contribute the same, and both then miss half of it. -/
theorem c61_violation_shared_face (p p' : Patch) (hp : p.lo0 ≤ p.hi0) (hp' : p'.lo0 ≤ p'.hi0) (hadj : p'.lo0 = p.hi0 + 1)
    (nA nB : ℕ) (same : Bool) (R d q : ℝ) (temp : Field2) (pa pb : ℕ → Field2) (diff : ℤ × ℤ → ℝ) (j : ℤ)
    (hj : p.lo1 ≤ j ∧ j ≤ p.hi1) (hj' : p'.lo1 ≤ j ∧ j ≤ p'.hi1) :
    let w := cellD nA nB same (factorT R d q temp) pa pb
    let f := (p.hi0 + 1, j)
    abTX p nA nB same R d q temp pa pb diff f = diff f + w (p.hi0, j) ∧
    abTX p' nA nB same R d q temp pa pb diff f = diff f + w (p.hi0 + 1, j) ∧
    (abTX p nA nB same R d q temp pa pb diff f = abTX p' nA nB same R d q temp pa pb diff f ↔
      w (p.hi0, j) = w (p.hi0 + 1, j)) := by
  intro w f
  have h1 : abTX p nA nB same R d q temp pa pb diff f = diff f + w (p.hi0, j) := by
    unfold abTX
    rw [scatX_eq _ (nodup_loop2 _ _ _ _), if_neg (by rw [mem_loop2]; simp only; omega),
      if_pos (by rw [mem_loop2]; simp only; omega)]
    simp only [add_zero, add_sub_cancel_right, f, w]
  have h2 : abTX p' nA nB same R d q temp pa pb diff f = diff f + w (p.hi0 + 1, j) := by
    unfold abTX
    rw [scatX_eq _ (nodup_loop2 _ _ _ _), if_pos (by rw [mem_loop2]; simp only; omega),
      if_neg (by rw [mem_loop2]; simp only; omega)]
    simp only [add_zero, f, w]
  refine ⟨h1, h2, ?_⟩
  rw [h1, h2]
  exact add_right_inj _

/-- **C61 is violated**: solute is then not conserved.  The flux `D·grad` that leaves the left patch through the shared face
and the one that enters the right patch differ by `(w_left - w_right)·grad`. -/
theorem c61_violation_mass (p p' : Patch) (hp : p.lo0 ≤ p.hi0) (hp' : p'.lo0 ≤ p'.hi0) (hadj : p'.lo0 = p.hi0 + 1)
    (nA nB : ℕ) (same : Bool) (R d q : ℝ) (temp : Field2) (pa pb : ℕ → Field2) (diff : ℤ × ℤ → ℝ) (j : ℤ)
    (hj : p.lo1 ≤ j ∧ j ≤ p.hi1) (hj' : p'.lo1 ≤ j ∧ j ≤ p'.hi1) (grad : ℝ) (hg : grad ≠ 0)
    (hw : cellD nA nB same (factorT R d q temp) pa pb (p.hi0, j) ≠
      cellD nA nB same (factorT R d q temp) pa pb (p.hi0 + 1, j)) :
    abTX p nA nB same R d q temp pa pb diff (p.hi0 + 1, j) * grad ≠
      abTX p' nA nB same R d q temp pa pb diff (p.hi0 + 1, j) * grad := by
  intro h
  exact hw ((c61_violation_shared_face p p' hp hp' hadj nA nB same R d q temp pa pb diff j hj hj').2.2.mp
    (mul_right_cancel₀ hg h))

/-! ## C62 -/

/-- **C62**: for one order parameter every coefficient read by either flux routine was written and has storage. -/
theorem c62_two_phase (p : Patch) (iso : Bool) (f : ℤ × ℤ)
    (h : if iso then ReadIsoX p f else ReadPlainX p f) :
    WrittenTwoX p (coeffGhosts iso) f ∧ StoredX p (coeffGhosts iso) f := by
  cases iso
  · simp only [Bool.false_eq_true, if_false] at h
    unfold ReadPlainX at h
    unfold WrittenTwoX StoredX coeffGhosts
    simp only [Bool.false_eq_true, if_false, Nat.cast_zero]
    omega
  · simp only [if_true] at h
    obtain ⟨i, j, h1, h2, h3, h4, h5⟩ := h
    unfold WrittenTwoX StoredX coeffGhosts
    simp only [if_true, Nat.cast_one]
    rcases h5 with rfl | rfl | rfl <;> simp only <;> omega

/-- **C62**: the routine for one order parameter writes inside the storage of the coefficient only, and on no other face than
those between two rows of cells of the (grown) patch. -/
theorem c62_two_phase_storage (p : Patch) (iso : Bool) (f : ℤ × ℤ) (h : WrittenTwoX p (coeffGhosts iso) f) :
    StoredX p (coeffGhosts iso) f ∧ p.lo0 ≤ f.1 ∧ f.1 ≤ p.hi0 + 1 := by
  unfold WrittenTwoX at h
  unfold StoredX
  refine ⟨?_, h.1, h.2.1⟩
  have : (0 : ℤ) ≤ (coeffGhosts iso : ℤ) := Int.natCast_nonneg _
  omega

/-- **C62** (partial): with several order parameters or three phases this holds for the plain stencil. -/
theorem c62_multi_partial (p : Patch) (f : ℤ × ℤ) (h : ReadPlainX p f) : WrittenMultiX p (coeffGhosts false) f := h

/-- **C62 is violated** for the isotropic stencil with several order parameters or three phases: on every non-empty patch it
reads coefficients that were never computed. -/
theorem c62_violation_iso (p : Patch) (h0 : p.lo0 ≤ p.hi0) (h1 : p.lo1 ≤ p.hi1) :
    ∃ f, ReadIsoX p f ∧ StoredX p (coeffGhosts true) f ∧ ¬ WrittenMultiX p (coeffGhosts true) f := by
  refine ⟨(p.lo0, p.lo1 - 1), ⟨p.lo0, p.lo1, le_rfl, by omega, le_rfl, h1, Or.inl rfl⟩, ?_, ?_⟩
  · unfold StoredX coeffGhosts
    simp only [if_true, Nat.cast_one]
    omega
  · unfold WrittenMultiX
    simp only
    omega

/-- **C62**: with two ghost cells every face updated by the interface terms has storage. -/
theorem c62_scalar_storage_partial (p : Patch) (n : ℕ) (hn : 2 ≤ n) (f : ℤ × ℤ) (h : WrittenAbX p f) :
    StoredX p (scalarGhosts n) f := by
  obtain ⟨c, hc, h⟩ := h
  rw [mem_loop2] at hc
  unfold StoredX scalarGhosts
  have : ((n - 1 : ℕ) : ℤ) = n - 1 := by omega
  rw [this]
  rcases h with rfl | rfl <;> simp only <;> omega

/-- **C62 is violated** with one ghost cell, the default: on every non-empty patch the interface terms are added outside the
storage of the coefficient. -/
theorem c62_violation_scalar_storage (p : Patch) (h0 : p.lo0 ≤ p.hi0) (h1 : p.lo1 ≤ p.hi1) :
    ∃ f, WrittenAbX p f ∧ ¬ StoredX p (scalarGhosts 1) f := by
  refine ⟨(p.lo0 - 1, p.lo1 - 1), ⟨(p.lo0 - 1, p.lo1 - 1), ?_, Or.inl rfl⟩, ?_⟩
  · rw [mem_loop2]; simp only; omega
  · unfold StoredX scalarGhosts
    simp only [Nat.sub_self, Nat.cast_zero]
    omega

/-! ## Non-vacuity -/

/-- A liquid fraction dropping from 1 to 0 across the face meets the hypotheses of the violation. -/
example : multiY 'l' 'a' 8 ⟨1, 0⟩ ⟨1, 0⟩ [] (fun _ j => if j < 0 then 1 else 0) (fun _ _ => 1000) 0 0 ≠
    multiX 'l' 'a' 8 ⟨1, 0⟩ ⟨1, 0⟩ [] (turned fun _ j => if j < 0 then 1 else 0) (turned fun _ _ => 1000) 0 0 := by
  have := c60_violation_multi_y_linear 8 ⟨1, 0⟩ ⟨1, 0⟩ (by norm_num) [] (fun _ j => if j < 0 then 1 else 0)
    (fun _ _ => 1000) 0 0 (by norm_num) (by norm_num) (by norm_num)
  simpa using this

/-- Two patches side by side with an interface in the left one only. -/
example : ∃ (p p' : Patch) (pa pb : ℕ → Field2), p'.lo0 = p.hi0 + 1 ∧ p.lo0 ≤ p.hi0 ∧
    cellD 1 1 false (factorT 8 1 0 fun _ _ => 1000) pa pb (p.hi0, 0) ≠
      cellD 1 1 false (factorT 8 1 0 fun _ _ => 1000) pa pb (p.hi0 + 1, 0) := by
  refine ⟨⟨0, 3, 0, 3⟩, ⟨4, 7, 0, 3⟩, fun _ i _ => if i ≤ 3 then 1 / 2 else 1,
    fun _ i _ => if i ≤ 3 then 1 / 2 else 0, by norm_num, by norm_num, ?_⟩
  have hl : (phasePairs 1 1 false) = [(0, 0)] := by decide
  simp only [cellD, hl, List.map_cons, List.map_nil, List.sum_cons, List.sum_nil, factorT]
  norm_num [dAB, thr]

end AMPE.DiffCoeff.Props
