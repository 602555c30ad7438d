import Verif.Model.PhaseSplit
import Verif.Props.DiffCoeff
import Verif.Props.AlloyThree

/-! # C91: phases that do not differ behave as one phase

With the same free energy in all phases the split must give every phase the composition of the cell, and with the same
diffusion coefficient the solute flux must be that of Fick's law, whatever the order parameters. Both come down to
fractions that add up to one. -/

namespace AMPE.PhaseSplit.Props

open AMPE.Functions AMPE.Functions.Props AMPE.Flux AMPE.Flux.Props AMPE.DiffCoeff AMPE.DiffCoeff.Props AMPE.PhaseSplit

/-! ## Splitting -/

/-- Same free energy in all phases: the compositions are equal and scaled by the sum of the fractions. -/
theorem split_identical {n nc : ℕ} (w : Fin n → ℝ) (mu : (Fin nc → ℝ) → Fin nc → ℝ) (hmu : Function.Injective mu)
    (c : Fin nc → ℝ) (x : Fin n → Fin nc → ℝ) (h : Kks w (fun _ => mu) c x) (p : Fin n) : (∑ q, w q) • x p = c := by
  rw [← h.mixture, Finset.sum_smul]
  exact Finset.sum_congr rfl fun q _ => by rw [hmu (h.equal p q)]

/-- Fractions that add up to one give the composition of the cell to every phase. -/
theorem split_one {n nc : ℕ} (w : Fin n → ℝ) (hw : ∑ q, w q = 1) (mu : (Fin nc → ℝ) → Fin nc → ℝ)
    (hmu : Function.Injective mu) (c : Fin nc → ℝ) (x : Fin n → Fin nc → ℝ) (h : Kks w (fun _ => mu) c x) (p : Fin n) :
    x p = c := by
  simpa [hw] using split_identical w mu hmu c x h p

/-- **C91** One order parameter, or several with two phases: every phase gets the composition of the cell. -/
theorem c91_split_two (it : Char) (phi : ℝ) (w : Fin 2 → ℝ) (hw : splitOne it phi = some w) {nc : ℕ}
    (mu : (Fin nc → ℝ) → Fin nc → ℝ) (hmu : Function.Injective mu) (c : Fin nc → ℝ) (x : Fin 2 → Fin nc → ℝ)
    (h : Kks w (fun _ => mu) c x) (p : Fin 2) : x p = c := by
  refine split_one w ?_ mu hmu c x h p
  simp only [splitOne, Option.map_eq_some_iff] at hw
  obtain ⟨v, -, rfl⟩ := hw
  simp

theorem c91_split_many (it : Char) (solids : List ℝ) (w : Fin 2 → ℝ) (hw : splitMany it solids = some w) {nc : ℕ}
    (mu : (Fin nc → ℝ) → Fin nc → ℝ) (hmu : Function.Injective mu) (c : Fin nc → ℝ) (x : Fin 2 → Fin nc → ℝ)
    (h : Kks w (fun _ => mu) c x) (p : Fin 2) : x p = c := c91_split_two it _ w hw mu hmu c x h p

/-- **C91** With several order parameters the fraction of the solid is the interpolation of the sum of the solids, whatever their
order, and the liquid has the rest. -/
theorem c91_split_many_value (it : Char) (solids : List ℝ) (w : Fin 2 → ℝ) (hw : splitMany it solids = some w) :
    interpFunc it solids.sum = some (w 1) ∧ w 0 = 1 - w 1 := by
  have e : solids.foldl (· + ·) 0 = solids.sum := by
    rw [List.sum_eq_foldl]
  unfold splitMany splitOne at hw
  rw [e] at hw
  obtain ⟨v, hv, rfl⟩ := Option.map_eq_some_iff.1 hw
  exact ⟨by simpa using hv, by simp⟩

/-- **C91** Three phases with several order parameters of each. -/
theorem c91_split_many_three (n nA : ℕ) (phi : Fin (n + 1) → ℝ) (hphi : ∃ k, phi k ≠ 0) {nc : ℕ}
    (mu : (Fin nc → ℝ) → Fin nc → ℝ) (hmu : Function.Injective mu) (c : Fin nc → ℝ) (x : Fin 3 → Fin nc → ℝ)
    (h : Kks (AlloyThree.shares n nA phi) (fun _ => mu) c x) (p : Fin 3) : x p = c := by
  refine split_one _ ?_ mu hmu c x h p
  have e : (∑ k : Fin n, if k.val < nA then phi k.castSucc * phi k.castSucc else 0)
      + (∑ k : Fin n, if k.val < nA then 0 else phi k.castSucc * phi k.castSucc) = ∑ k : Fin n, phi k.castSucc * phi k.castSucc := by
    rw [← Finset.sum_add_distrib]
    exact Finset.sum_congr rfl fun k _ => by split_ifs <;> simp
  have hs : 0 < phi (Fin.last n) * phi (Fin.last n) + ∑ k : Fin n, phi k.castSucc * phi k.castSucc := by
    have : phi (Fin.last n) * phi (Fin.last n) + ∑ k : Fin n, phi k.castSucc * phi k.castSucc = ∑ k, phi k * phi k := by
      rw [Fin.sum_univ_castSucc, add_comm]
    rw [this]
    obtain ⟨k, hk⟩ := hphi
    exact Finset.sum_pos' (fun i _ => mul_self_nonneg _) ⟨k, Finset.mem_univ _, mul_self_pos.2 hk⟩
  simp only [AlloyThree.shares, Fin.sum_univ_three, Matrix.cons_val_zero, Matrix.cons_val_one, Matrix.cons_val]
  rw [← e, ← add_assoc] at hs
  rw [← add_mul, ← add_mul]
  exact mul_one_div_cancel hs.ne'

/-- Fractions of three order parameters that are non-negative and add up to one. -/
structure Simplex (phi : Fin 3 → ℝ) : Prop where
  nonneg : ∀ i, 0 ≤ phi i
  sum : phi 0 + phi 1 + phi 2 = 1

theorem Simplex.le_one {phi : Fin 3 → ℝ} (h : Simplex phi) (i : Fin 3) : phi i ≤ 1 := by
  have a := h.nonneg 0
  have b := h.nonneg 1
  have c := h.nonneg 2
  have := h.sum
  fin_cases i <;> simp <;> linarith

theorem clamp_unit {x : ℝ} (h0 : 0 ≤ x) (h1 : x ≤ 1) : clamp x = x := by
  simp [clamp, h0, h1]

/-- Sum of the fractions at a point of the simplex, for the three kinds that the input accepts. -/
theorem three_sums (phi : Fin 3 → ℝ) (h : Simplex phi) :
    (∃ w, splitThree 'l' phi = some w ∧ ∑ q, w q = 1) ∧
    (∃ w, splitThree 'h' phi = some w ∧ ∑ q, w q = 1 - 6 * (phi 0 * phi 1 * phi 2)) ∧
    (∃ w, splitThree 'p' phi = some w ∧
      ∑ q, w q = 1 - 30 * (phi 0 * phi 1 * phi 2) * (phi 0 * phi 1 + phi 1 * phi 2 + phi 0 * phi 2)) := by
  have c0 := clamp_unit (h.nonneg 0) (h.le_one 0)
  have c1 := clamp_unit (h.nonneg 1) (h.le_one 1)
  have c2 := clamp_unit (h.nonneg 2) (h.le_one 2)
  have e : phi 2 = 1 - phi 0 - phi 1 := by linarith [h.sum]
  refine ⟨⟨_, by simp [splitThree, interpFunc]; rfl, ?_⟩, ⟨_, by simp [splitThree, interpFunc]; rfl, ?_⟩,
    ⟨_, by simp [splitThree, interpFunc]; rfl, ?_⟩⟩
  · have l0 := h.le_one 0
    have l1 := h.le_one 1
    have l2 := h.le_one 2
    simp only [Fin.sum_univ_three, Matrix.cons_val_zero, Matrix.cons_val_one, Matrix.cons_val, pos, max_eq_right (h.nonneg _),
      min_eq_right l0, min_eq_right l1, min_eq_right l2]
    exact h.sum
  · simp only [Fin.sum_univ_three, Matrix.cons_val_zero, Matrix.cons_val_one, Matrix.cons_val, c0, c1, c2]
    rw [e]; ring
  · simp only [Fin.sum_univ_three, Matrix.cons_val_zero, Matrix.cons_val_one, Matrix.cons_val, c0, c1, c2]
    rw [e]; ring

/-- **C91** (partial) Three order parameters with linear interpolation: every phase gets the composition of the cell. -/
theorem c91_split_three_partial (phi : Fin 3 → ℝ) (hphi : Simplex phi) (w : Fin 3 → ℝ) (hw : splitThree 'l' phi = some w) {nc : ℕ}
    (mu : (Fin nc → ℝ) → Fin nc → ℝ) (hmu : Function.Injective mu) (c : Fin nc → ℝ) (x : Fin 3 → Fin nc → ℝ)
    (h : Kks w (fun _ => mu) c x) (p : Fin 3) : x p = c := by
  obtain ⟨⟨w', hw', hs⟩, -⟩ := three_sums phi hphi
  rw [hw] at hw'
  obtain rfl := Option.some.inj hw'
  exact split_one w hs mu hmu c x h p

/-- **C91 is violated** by three order parameters with the two other kinds, of which one is the default: where the three phases
meet every phase gets too high a composition; exactly along two-phase interfaces and in pure phases the split is right. -/
theorem c91_violation_split_three_iff (it : Char) (hit : it = 'p' ∨ it = 'h') (phi : Fin 3 → ℝ) (hphi : Simplex phi) {nc : ℕ}
    (mu : (Fin nc → ℝ) → Fin nc → ℝ) (hmu : Function.Injective mu) (c : Fin nc → ℝ) (hc : c ≠ 0) (x : Fin 3 → Fin nc → ℝ)
    (w : Fin 3 → ℝ) (hw : splitThree it phi = some w) (h : Kks w (fun _ => mu) c x) (p : Fin 3) :
    x p = c ↔ phi 0 = 0 ∨ phi 1 = 0 ∨ phi 2 = 0 := by
  obtain ⟨-, ⟨w1, hw1, hs1⟩, ⟨w2, hw2, hs2⟩⟩ := three_sums phi hphi
  have key := split_identical w mu hmu c x h p
  have n0 := hphi.nonneg 0
  have n1 := hphi.nonneg 1
  have n2 := hphi.nonneg 2
  have one : x p = c ↔ ∑ q, w q = 1 := by
    constructor
    · intro e
      rw [e] at key
      have : ((∑ q, w q) - 1) • c = 0 := by rw [sub_smul, key, one_smul, sub_self]
      rcases smul_eq_zero.1 this with h | h
      · linarith
      · exact absurd h hc
    · intro e
      simpa [e] using key
  rw [one]
  have zero : phi 0 = 0 ∨ phi 1 = 0 ∨ phi 2 = 0 ↔ phi 0 * phi 1 * phi 2 = 0 := by
    rw [mul_eq_zero, mul_eq_zero, or_assoc]
  rw [zero]
  rcases hit with rfl | rfl
  · rw [hw] at hw2
    obtain rfl := Option.some.inj hw2
    rw [hs2]
    constructor
    · intro e
      have : (phi 0 * phi 1 * phi 2) * (phi 0 * phi 1 + phi 1 * phi 2 + phi 0 * phi 2) = 0 := by linarith
      rcases mul_eq_zero.1 this with h | h
      · exact h
      · have : phi 0 * phi 1 = 0 := by nlinarith [mul_nonneg n0 n1, mul_nonneg n1 n2, mul_nonneg n0 n2]
        rw [this, zero_mul]
    · intro e; rw [e]; ring
  · rw [hw] at hw1
    obtain rfl := Option.some.inj hw1
    rw [hs1]
    constructor <;> intro e <;> linarith

/-- Without the keys the kind is the default of the energy interpolation, for which the split is wrong. -/
theorem c91_violation_default : concInterp none none = some 'p' := by decide

/-! ## Diffusion -/

/-- **C91** One order parameter: the two coefficients add up to the common one, for every kind of interpolation and average. -/
theorem c91_diffusion_two (it at_ : Char) (R : ℝ) (m : Arrhenius) (phi temp : Pair) (u : ℝ × ℝ)
    (h : twoPhase it at_ R m m phi temp = some u) : u.1 + u.2 = rate R m temp := by
  unfold twoPhase at h
  cases hv : avgP at_ phi with
  | none => simp [hv] at h
  | some v =>
    cases hh : interpFunc it v with
    | none => simp [hv, hh] at h
    | some w =>
      simp [hv, hh] at h
      subst h
      simp only
      ring

/-- **C91** Beckermann's form. -/
theorem c91_diffusion_beckermann (it at_ : Char) (d k : ℝ) (phi : Pair) (u : ℝ) (h : beckermann it at_ d d k phi = some u) :
    u = d := by
  unfold beckermann at h
  cases hv : avgP at_ phi with
  | none => simp [hv] at h
  | some v =>
    cases hh : interpFunc it v with
    | none => simp [hv, hh] at h
    | some w =>
      simp [hv, hh] at h
      exact h.symm

theorem sumAvg_a (ps : List Pair) : sumAvg 'a' ps = some (ps.map fun p => (p.1 + p.2) / 2).sum := by
  have key : ∀ s : ℝ, ps.foldlM (fun s p => do let a ← avgP 'a' p; some (s + a)) s = some (s + (ps.map fun p => (p.1 + p.2) / 2).sum) := by
    induction ps with
    | nil => intro s; simp
    | cons p ps ih =>
      intro s
      have e : avgP 'a' p = some ((p.1 + p.2) / 2) := by
        simp only [avgP, averageFunc, if_true, Option.some.injEq]
        norm_num; ring
      rw [List.foldlM_cons, e]
      refine (ih (s + (p.1 + p.2) / 2)).trans ?_
      rw [List.map_cons, List.sum_cons, add_assoc]
  have := key 0
  simpa [sumAvg] using this

theorem avg_a (p : Pair) : avgP 'a' p = some ((p.1 + p.2) / 2) := by
  simp only [avgP, averageFunc, if_true, Option.some.injEq]
  norm_num; ring

/-- Kinds of interpolation with `h(1 - x) = 1 - h(x)`. -/
theorem interp_symmetric (it : Char) (hit : it = 'l' ∨ it = 'p' ∨ it = 'h') (v : ℝ) (h0 : 0 ≤ v) (h1 : v ≤ 1) :
    ∃ a b, interpFunc it v = some a ∧ interpFunc it (1 - v) = some b ∧ a + b = 1 := by
  have c0 := clamp_unit h0 h1
  have c1 := clamp_unit (x := 1 - v) (by linarith) (by linarith)
  rcases hit with rfl | rfl | rfl
  · refine ⟨v, 1 - v, ?_, ?_, by ring⟩
    · simp [interpFunc, pos, h0, h1]
    · simp [interpFunc, pos, h0, h1]
  · refine ⟨_, _, by simp [interpFunc]; rfl, by simp [interpFunc]; rfl, ?_⟩
    rw [c0, c1]; ring
  · refine ⟨_, _, by simp [interpFunc]; rfl, by simp [interpFunc]; rfl, ?_⟩
    rw [c0, c1]; ring

/-- Order parameters of the two cells next to a face: those of the solids add up to one minus the liquid one. -/
structure Complete (solids : List Pair) (liquid : Pair) : Prop where
  left : (solids.map Prod.fst).sum + liquid.1 = 1
  right : (solids.map Prod.snd).sum + liquid.2 = 1
  unit : 0 ≤ liquid.1 ∧ liquid.1 ≤ 1 ∧ 0 ≤ liquid.2 ∧ liquid.2 ≤ 1

theorem mean_sum (ps : List Pair) :
    (ps.map fun p => (p.1 + p.2) / 2).sum = ((ps.map Prod.fst).sum + (ps.map Prod.snd).sum) / 2 := by
  induction ps with
  | nil => simp
  | cons p ps ih => simp only [List.map_cons, List.sum_cons, ih]; ring

/-- **C91** (partial) Several order parameters with arithmetic averages: the coefficients add up to the common one. -/
theorem c91_diffusion_many_partial (it : Char) (hit : it = 'l' ∨ it = 'p' ∨ it = 'h') (R : ℝ) (m : Arrhenius)
    (solids : List Pair) (liquid temp : Pair) (hc : Complete solids liquid) :
    ∃ u, multi it 'a' R m m solids liquid temp = some u ∧ u.1 + u.2 = rate R m temp ∧
      scalarTwo it 'a' m.d0 m.d0 solids liquid = some m.d0 := by
  have hu := hc.unit
  have es : (solids.map fun p => (p.1 + p.2) / 2).sum = 1 - (liquid.1 + liquid.2) / 2 := by
    rw [mean_sum]; linarith [hc.left, hc.right]
  obtain ⟨a, b, ha, hb, hab⟩ := interp_symmetric it hit ((liquid.1 + liquid.2) / 2) (by linarith) (by linarith)
  refine ⟨(a * rate R m temp, b * rate R m temp), ?_, ?_, ?_⟩
  · simp [multi, sumAvg_a, es, avg_a, ha, hb]
  · simp only
    rw [← add_mul, hab, one_mul]
  · simp only [scalarTwo, sumAvg_a, es, avg_a, ha, hb, Option.bind_eq_bind, Option.bind_some, Option.some.injEq]
    rw [← add_mul, hab, one_mul]

/-- **C91 is violated** by several order parameters with harmonic averages, the default: across a front where the order parameter
changes by any amount the total coefficient is smaller than the common one (`p`, `q` are the solid fractions in the two cells). -/
theorem c91_violation_harmonic (R : ℝ) (m : Arrhenius) (hm : 0 < m.d0) (p q : ℝ) (temp : Pair)
    (hp : threshold ≤ p) (hp1 : p ≤ 1 - threshold) (hq : threshold ≤ q) (hq1 : q ≤ 1 - threshold) :
    ∃ u, multi 'l' 'h' R m m [(p, q)] (1 - p, 1 - q) temp = some u ∧ u.1 + u.2 ≤ rate R m temp ∧
      (u.1 + u.2 = rate R m temp ↔ p = q) ∧
      u.1 + u.2 = rate R m temp * (1 - (p - q) ^ 2 / ((p + q) * (2 - p - q))) := by
  have ht := threshold_pos
  have p0 : 0 < p := by linarith
  have q0 : 0 < q := by linarith
  have p1 : 0 < 1 - p := by linarith
  have q1 : 0 < 1 - q := by linarith
  have s0 : 0 < p + q := by linarith
  have s1 : 0 < 2 - p - q := by linarith
  have n1 : ¬ (p < threshold ∨ q < threshold) := by push Not; exact ⟨hp, hq⟩
  have n2 : ¬ (1 - p < threshold ∨ 1 - q < threshold) := by push Not; constructor <;> linarith
  have ea : avgP 'h' (p, q) = some (2 * p * q / (p + q)) := by
    simp only [avgP, averageFunc, Char.reduceEq, if_false, if_true, n1, Option.some.injEq]
    field_simp; ring
  have eb : avgP 'h' (1 - p, 1 - q) = some (2 * (1 - p) * (1 - q) / (2 - p - q)) := by
    simp only [avgP, averageFunc, Char.reduceEq, if_false, if_true, n2, Option.some.injEq]
    have : (1 - p) + (1 - q) = 2 - p - q := by ring
    field_simp
    rw [add_comm, this]
  have le1 : 2 * p * q / (p + q) ≤ 1 := by rw [div_le_one s0]; nlinarith
  have le2 : 2 * (1 - p) * (1 - q) / (2 - p - q) ≤ 1 := by rw [div_le_one s1]; nlinarith
  have i1 : interpFunc 'l' (2 * p * q / (p + q)) = some (2 * p * q / (p + q)) := by
    have : 0 ≤ 2 * p * q / (p + q) := by positivity
    simp [interpFunc, pos, max_eq_right this, min_eq_right le1]
  have i2 : interpFunc 'l' (2 * (1 - p) * (1 - q) / (2 - p - q)) = some (2 * (1 - p) * (1 - q) / (2 - p - q)) := by
    have : 0 ≤ 2 * (1 - p) * (1 - q) / (2 - p - q) := by positivity
    simp [interpFunc, pos, max_eq_right this, min_eq_right le2]
  have es : sumAvg 'h' [(p, q)] = some (2 * p * q / (p + q)) := by simp [sumAvg, ea]
  have hr : 0 < rate R m temp := by unfold rate; positivity
  have tot : 2 * (1 - p) * (1 - q) / (2 - p - q) * rate R m temp + 2 * p * q / (p + q) * rate R m temp
      = rate R m temp * (1 - (p - q) ^ 2 / ((p + q) * (2 - p - q))) := by
    field_simp; ring
  have dn : 0 ≤ (p - q) ^ 2 / ((p + q) * (2 - p - q)) := by positivity
  refine ⟨(2 * (1 - p) * (1 - q) / (2 - p - q) * rate R m temp, 2 * p * q / (p + q) * rate R m temp), ?_, ?_, ?_, tot⟩
  · simp [multi, es, eb, i1, i2]
  · simp only [tot]; nlinarith
  · simp only [tot]
    constructor
    · intro e
      have : (p - q) ^ 2 / ((p + q) * (2 - p - q)) = 0 := by
        have := mul_left_cancel₀ hr.ne' (e.trans (mul_one _).symm)
        linarith
      rcases div_eq_zero_iff.1 this with h | h
      · have := pow_eq_zero_iff (two_ne_zero) |>.1 h
        linarith
      · exact absurd h (by positivity)
    · rintro rfl; simp

/-- **C91 is violated** at its worst across a sharp front: with harmonic averages nothing at all diffuses from a cell of liquid
to a cell of solid, even though the phases are the same. With one order parameter the full coefficient remains. -/
theorem c91_violation_sharp (it : Char) (hit : it ∈ proper) (R : ℝ) (m : Arrhenius) (temp : Pair) :
    multi it 'h' R m m [(0, 1)] (1, 0) temp = some (0, 0) ∧ twoPhase it 'h' R m m (0, 1) temp = some (rate R m temp, 0) := by
  have ht := threshold_pos
  obtain ⟨e0, -⟩ := c10_endpoints it hit
  have ea : avgP 'h' (0, 1) = some 0 := by simp [avgP, averageFunc, ht]
  have eb : avgP 'h' (1, 0) = some 0 := by simp [avgP, averageFunc, ht]
  constructor
  · simp [multi, sumAvg, ea, eb, e0]
  · simp [twoPhase, ea, e0]

/-- **C91** (partial) Three phases with linear interpolation and arithmetic averages. -/
theorem c91_diffusion_three_partial (R : ℝ) (m : Arrhenius) (pa pb : List Pair) (liquid temp : Pair)
    (hc : Complete (pa ++ pb) liquid) (ha : 0 ≤ (pa.map fun p => (p.1 + p.2) / 2).sum) (hb : 0 ≤ (pb.map fun p => (p.1 + p.2) / 2).sum) :
    ∃ u, three (sumAvg 'a') 'l' 'a' R m m m pa pb liquid temp = some u ∧ u.1 + u.2.1 + u.2.2 = rate R m temp ∧
      scalarThree 'l' 'a' m.d0 m.d0 m.d0 pa pb liquid = some m.d0 := by
  have hu := hc.unit
  have es : (pa.map fun p => (p.1 + p.2) / 2).sum + (pb.map fun p => (p.1 + p.2) / 2).sum + (liquid.1 + liquid.2) / 2 = 1 := by
    have := mean_sum (pa ++ pb)
    rw [List.map_append, List.sum_append] at this
    rw [this]; linarith [hc.left, hc.right]
  set A := (pa.map fun p => (p.1 + p.2) / 2).sum with hA
  set B := (pb.map fun p => (p.1 + p.2) / 2).sum with hB
  set L := (liquid.1 + liquid.2) / 2 with hL
  have hL0 : 0 ≤ L := by rw [hL]; linarith
  have il : ∀ v : ℝ, 0 ≤ v → v ≤ 1 → interpFunc 'l' v = some v := fun v h0 h1 => by simp [interpFunc, pos, h0, h1]
  have iA := il A ha (by linarith)
  have iB := il B hb (by linarith)
  have iL := il L hL0 (by linarith)
  refine ⟨(L * rate R m temp, A * rate R m temp, B * rate R m temp), ?_, ?_, ?_⟩
  · simp [three, sumAvg_a, avg_a, ← hA, ← hB, ← hL, iA, iB, iL]
  · simp only
    linear_combination rate R m temp * es
  · simp only [scalarThree, sumAvg_a, avg_a, ← hA, ← hB, ← hL, iA, iB, iL, Option.bind_eq_bind, Option.bind_some, Option.some.injEq]
    linear_combination m.d0 * es

/-- **C91 is violated** by three phases with `pbg` interpolation: where the three phases meet the total coefficient is smaller than the common one,
by exactly the factor `1 - 30 L A B (L A + A B + L B)`. -/
theorem c91_violation_diffusion_three (R : ℝ) (m : Arrhenius) (phi : Fin 3 → ℝ) (h : Simplex phi) (temp : Pair) :
    ∃ u, three (sumAvg 'a') 'p' 'a' R m m m [(phi 1, phi 1)] [(phi 2, phi 2)] (phi 0, phi 0) temp = some u ∧
      u.1 + u.2.1 + u.2.2 = rate R m temp *
        (1 - 30 * (phi 0 * phi 1 * phi 2) * (phi 0 * phi 1 + phi 1 * phi 2 + phi 0 * phi 2)) := by
  obtain ⟨-, -, ⟨w, hw, hs⟩⟩ := three_sums phi h
  unfold splitThree at hw
  cases h0 : interpFunc 'p' (phi 0) with
  | none => simp [h0] at hw
  | some a =>
    cases h1 : interpFunc 'p' (phi 1) with
    | none => simp [h0, h1] at hw
    | some b =>
      cases h2 : interpFunc 'p' (phi 2) with
      | none => simp [h0, h1, h2] at hw
      | some c =>
        simp [h0, h1, h2] at hw
        subst hw
        have e : ∀ v : ℝ, (v + v) / 2 = v := fun v => by ring
        refine ⟨(a * rate R m temp, b * rate R m temp, c * rate R m temp), ?_, ?_⟩
        · simp [three, sumAvg_a, avg_a, e, h0, h1, h2]
        · simp only
          rw [← hs]
          simp [Fin.sum_univ_three]
          ring

/-- **C91 is violated** by the third kind that the input accepts: no routine knows it, the run stops. -/
theorem c91_violation_biased (at_ : Char) (R : ℝ) (l s : Arrhenius) (phi temp : Pair) :
    diffusionInterp (some 'b') = some 'b' ∧ twoPhase 'b' at_ R l s phi temp = none := by
  refine ⟨by decide, ?_⟩
  unfold twoPhase
  cases avgP at_ phi with
  | none => rfl
  | some v => simp [interpFunc]

/-! ## Flux -/

theorem fluxSum_eq {n : ℕ} (dx : ℝ) (d x : Fin n → Field2) (i0 i1 : ℤ) :
    fluxSum dx d x i0 i1 = ∑ p, 1 / dx * d p i0 i1 * (x p i0 i1 - x p (i0 - 1) i1) := by
  have key : ∀ (l : List (Fin n)) (f : Field2),
      (l.foldl (fun f p => addFluxX dx 1 (fun _ => x p) (fun _ => d p) (fun _ => f) 1) f) i0 i1
        = f i0 i1 + (l.map fun p => 1 / dx * d p i0 i1 * (x p i0 i1 - x p (i0 - 1) i1)).sum := by
    intro l
    induction l with
    | nil => intro f; simp
    | cons p l ih =>
      intro f
      rw [List.foldl_cons, ih]
      simp [addFluxX]
      ring
  unfold fluxSum
  rw [key, zero_add, ← List.ofFn_eq_map, List.sum_ofFn]

/-- **C91** From order parameters to flux: if the fractions used for the split add up to one in the two cells and the coefficients of the face
add up to the common one, phases with the same energy and the same coefficient give Fick's law. -/
theorem c91_fick {n : ℕ} (dx D : ℝ) (mu : (Fin 1 → ℝ) → Fin 1 → ℝ) (hmu : Function.Injective mu) (d x : Fin n → Field2) (c : Field2)
    (w : ℤ → ℤ → Fin n → ℝ) (i0 i1 : ℤ) (hd : ∑ p, d p i0 i1 = D) (hw : ∀ i, ∑ q, w i i1 q = 1)
    (hx : ∀ i, Kks (w i i1) (fun _ => mu) (fun _ => c i i1) (fun p _ => x p i i1)) :
    fluxSum dx d x i0 i1 = D * (c i0 i1 - c (i0 - 1) i1) / dx := by
  have e : ∀ i p, x p i i1 = c i i1 := fun i p => congrFun (split_one _ (hw i) mu hmu _ _ (hx i) p) 0
  rw [fluxSum_eq]
  simp only [e]
  rw [← Finset.sum_mul, ← Finset.mul_sum, hd]
  ring

/-- **C91** (partial) The chain for one order parameter, any interpolations and averages. -/
theorem c91_fick_one_partial (dx R : ℝ) (m : Arrhenius) (mu : (Fin 1 → ℝ) → Fin 1 → ℝ) (hmu : Function.Injective mu) (it itc at_ : Char)
    (phi temp c : Field2) (w : ℤ → ℤ → Fin 2 → ℝ) (d x : Fin 2 → Field2) (i0 i1 : ℤ)
    (hd : twoPhaseX it at_ R m m phi temp i0 i1 = some (d 0 i0 i1, d 1 i0 i1))
    (hw : ∀ i, splitOne itc (phi i i1) = some (w i i1))
    (hx : ∀ i, Kks (w i i1) (fun _ => mu) (fun _ => c i i1) (fun p _ => x p i i1)) :
    fluxSum dx d x i0 i1 = rate R m (X temp i0 i1) * (c i0 i1 - c (i0 - 1) i1) / dx := by
  refine c91_fick dx _ mu hmu d x c w i0 i1 ?_ ?_ hx
  · rw [Fin.sum_univ_two]
    exact c91_diffusion_two it at_ R m _ _ _ hd
  · intro i
    have := hw i
    simp only [splitOne, Option.map_eq_some_iff] at this
    obtain ⟨v, -, hv⟩ := this
    rw [← hv]; simp

/-! ## Examples -/

/-- A triple point meets `Simplex`; the default fractions there add up to 17/27, so every phase gets 27/17 of the composition of the cell. -/
theorem centre_simplex : Simplex (fun _ => 1 / 3) := ⟨fun _ => by norm_num, by norm_num⟩

example : ∃ w, splitThree 'p' (fun _ => 1 / 3) = some w ∧ ∑ q, w q = 17 / 27 := by
  obtain ⟨-, -, ⟨w, hw, hs⟩⟩ := three_sums _ centre_simplex
  exact ⟨w, hw, by rw [hs]; norm_num⟩

/-- Phases with the potential `mu(x) = 2 x` meet `Kks` with the composition of the cell. -/
example : Kks ![1 / 4, 3 / 4] (fun _ x => 2 • x) (fun _ : Fin 1 => (1 / 2 : ℝ)) (fun _ _ => 1 / 2) :=
  ⟨by ext i; simp [Fin.sum_univ_two]; norm_num, fun _ _ => rfl⟩

/-- Three grains and liquid next to a face meet `Complete`. -/
example : Complete [(1 / 2, 1 / 4), (0, 1 / 4)] (1 / 2, 1 / 2) := ⟨by norm_num, by norm_num, by norm_num⟩

end AMPE.PhaseSplit.Props
