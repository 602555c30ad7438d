import Verif.Proofs.FACSolve
import Mathlib.Algebra.Module.Pi
import Mathlib.Analysis.Complex.Exponential
import Mathlib.Tactic.Linarith
import Mathlib.Tactic.Ring
import Mathlib.Tactic.NormNum
import Mathlib.Tactic.Positivity
import Mathlib.Tactic.FieldSimp
import Mathlib.Tactic.IntervalCases
import Mathlib.Tactic.LinearCombination

/-!
# C97: what a multilevel solve reports and what it does to its input

Specification side: a solution is consistent when every covered coarse value is the restriction of the finer one, and its
composite residual is determined level by level from the finest one down.  Nothing here mentions cycles.
-/

namespace AMPE.FACSolve.Props

open AMPE.FACSolve

variable {L F : Type}

/-- `l` is one of the levels solved on, but not the finest. -/
def Coarser (p : Par) (l : ℤ) : Prop := p.lmin ≤ l ∧ l < p.lmin + p.n

/-- Covered coarse values agree with the finer level. -/
def Consistent (o : Ops L F) (p : Par) (u : Vec L) : Prop :=
  ∀ l, Coarser p l → o.restrictSol (u (l + 1)) (u l) l = u l

/-- `r` is the composite residual of `u`: on the finest level the residual there, below it the residual formed with the
border fluxes of the finer level and overwritten by the finer residual where covered. -/
def IsResidual (o : Ops L F) (p : Par) (f u r : Vec L) : Prop :=
  ∃ g : Vec F,
    (∃ g0, r (p.lmin + p.n) = (o.residual u f (p.lmin + p.n) false g0).1 ∧
      g (p.lmin + p.n) = (o.residual u f (p.lmin + p.n) false g0).2) ∧
    ∀ l, Coarser p l → r l = o.restrictRes (r (l + 1)) (o.residual u f l false (g (l + 1))).1 l ∧
      g l = (o.residual u f l false (g (l + 1))).2

/-- What the code assumes of its operators: restriction overwrites what it overwrote before, the finest level reads no border
flux, the norm looks at the levels solved on. -/
structure Sound (o : Ops L F) (p : Par) : Prop where
  idem : ∀ x y ln, o.restrictSol x (o.restrictSol x y ln) ln = o.restrictSol x y ln
  finest : ∀ u f b g g', o.residual u f (p.lmin + p.n) b g = o.residual u f (p.lmin + p.n) b g'
  norm : ∀ r r', (∀ l, p.lmin ≤ l → l ≤ p.lmin + p.n → r l = r' l) → o.norm r = o.norm r'

theorem residual_unique {o : Ops L F} {p : Par} (h : Sound o p) {f u r r' : Vec L} (hr : IsResidual o p f u r)
    (hr' : IsResidual o p f u r') : ∀ l, p.lmin ≤ l → l ≤ p.lmin + p.n → r l = r' l := by
  obtain ⟨g, ⟨g0, a1, a2⟩, a3⟩ := hr
  obtain ⟨g', ⟨g0', b1, b2⟩, b3⟩ := hr'
  have key : ∀ j : ℕ, j ≤ p.n → r (p.lmin + p.n - j) = r' (p.lmin + p.n - j) ∧
      g (p.lmin + p.n - j) = g' (p.lmin + p.n - j) := by
    intro j
    induction j with
    | zero => intro _; simp only [Nat.cast_zero, sub_zero]; rw [a1, b1, a2, b2, h.finest u f false g0 g0']; exact ⟨rfl, rfl⟩
    | succ j ih =>
      intro hj
      obtain ⟨i1, i2⟩ := ih (by omega)
      have hc : Coarser p (p.lmin + p.n - (j + 1 : ℕ)) := ⟨by push_cast; omega, by push_cast; omega⟩
      have e : p.lmin + p.n - ((j + 1 : ℕ) : ℤ) + 1 = p.lmin + p.n - j := by push_cast; ring
      obtain ⟨c1, c2⟩ := a3 _ hc
      obtain ⟨d1, d2⟩ := b3 _ hc
      rw [e] at c1 c2 d1 d2
      rw [c1, d1, c2, d2, i1, i2]
      exact ⟨rfl, rfl⟩
  intro l h1 h2
  have := (key (p.lmin + p.n - l).toNat (by omega)).1
  have e : p.lmin + p.n - ((p.lmin + p.n - l).toNat : ℤ) = l := by omega
  rwa [e] at this

theorem full_residual {o : Ops L F} {p : Par} {f u r : Vec L} {g : Vec F} (hu : Consistent o p u) :
    (full o p f u r g).1 = u ∧ IsResidual o p f u (full o p f u r g).2.1 := by
  set q := o.residual u f (p.lmin + p.n) false (g (p.lmin + p.n + 1)) with hq
  obtain ⟨h1, h2, h3⟩ := fullLoop_spec o p.lmin f p.n u (put r (p.lmin + p.n) q.1) (put g (p.lmin + p.n) q.2)
    (fun l ha hb => hu l ⟨ha, hb⟩)
  refine ⟨h1, _, ⟨g (p.lmin + p.n + 1), ?_, ?_⟩, fun l hl => h3 l hl.1 hl.2⟩
  · exact ((h2 _ (Or.inr le_rfl)).1).trans (put_same _ _ _)
  · exact ((h2 _ (Or.inr le_rfl)).2).trans (put_same _ _ _)

theorem step_result {o : Ops L F} {p : Par} (h : Sound o p) (a : Alg) (f : Vec L) (n0 : ℝ) (x : Outer L F) :
    Consistent o p (step o p a f n0 x).u ∧
    ∃ r, IsResidual o p f (step o p a f n0 x).u r ∧ (step o p a f n0 x).norm = o.norm r := by
  have hs : Consistent o p (sync o p.lmin p.n (addErr o p x.u (cycle o p a { x.w with e := fun _ => o.zero }).e)) :=
    fun l hl => (sync_spec o p.lmin h.idem p.n _).2 l hl.1 hl.2
  obtain ⟨h1, h2⟩ := full_residual (f := f) (r := (cycle o p a { x.w with e := fun _ => o.zero }).r)
    (g := (cycle o p a { x.w with e := fun _ => o.zero }).o) hs
  have e : (step o p a f n0 x).u =
      sync o p.lmin p.n (addErr o p x.u (cycle o p a { x.w with e := fun _ => o.zero }).e) := h1
  rw [e]
  exact ⟨hs, _, h2, rfl⟩

theorem solve_trace (o : Ops L F) (p : Par) (a : Alg) (f u : Vec L) (w : St L F) :
    ∃ j : ℕ, 1 ≤ j ∧
      (solve o p a f u w).1 = (step o p a f (start o p f u w).norm)^[j] (start o p f u w) ∧
      (∀ i, 1 ≤ i → i < j → ((step o p a f (start o p f u w).norm)^[i] (start o p f u w)).norm > effTol o p f ∧
        (i : ℤ) < p.maxIter) ∧
      (((step o p a f (start o p f u w).norm)^[j] (start o p f u w)).norm ≤ effTol o p f ∨ p.maxIter ≤ (j : ℤ)) := by
  obtain ⟨j, h1, h2, h3, h4⟩ := loop_spec o p a f (start o p f u w).norm (effTol o p f) p.maxIter.toNat (start o p f u w)
    (by have : (start o p f u w).k = 0 := rfl
        rw [this]; push_cast; omega)
  have hk : (start o p f u w).k = 0 := rfl
  refine ⟨j, h1, h2, ?_, ?_⟩
  · intro i hi1 hi2
    obtain ⟨g1, g2⟩ := h3 i hi1 hi2
    rw [hk, zero_add] at g2
    exact ⟨g1, g2⟩
  · rwa [hk, zero_add] at h4

/-- **C97** The returned solution is consistent across levels; the norm the solver reports is the norm of the composite
residual of exactly that solution, whatever cycle was used and whatever the operators do; `true` is returned exactly when
this norm is below the tolerance. -/
theorem c97_reported_norm {o : Ops L F} {p : Par} (h : Sound o p) (a : Alg) (f u : Vec L) (w : St L F) :
    Consistent o p (solve o p a f u w).1.u ∧
    (∀ r, IsResidual o p f (solve o p a f u w).1.u r → (solve o p a f u w).1.norm = o.norm r) ∧
    (∃ r, IsResidual o p f (solve o p a f u w).1.u r) ∧
    ((solve o p a f u w).2 = true ↔ (solve o p a f u w).1.norm < effTol o p f) := by
  obtain ⟨j, h1, h2, -, -⟩ := solve_trace o p a f u w
  obtain ⟨j, rfl⟩ : ∃ i, j = i + 1 := ⟨j - 1, by omega⟩
  rw [Function.iterate_succ_apply'] at h2
  obtain ⟨g1, r0, g2, g3⟩ := step_result h a f (start o p f u w).norm
    ((step o p a f (start o p f u w).norm)^[j] (start o p f u w))
  rw [← h2] at g1 g2 g3
  refine ⟨g1, fun r hr => ?_, ⟨r0, g2⟩, by simp [solve]⟩
  rw [g3]
  exact h.norm _ _ (residual_unique h g2 hr)

/-- **C97** The tolerance is the larger of the absolute and the relative one, the relative one being used only when not
negative. -/
theorem c97_tolerance (o : Ops L F) (p : Par) (f : Vec L) :
    effTol o p f = if 0 ≤ p.relTol then max p.tol (p.relTol * o.norm f) else p.tol := by
  unfold effTol
  by_cases h : 0 ≤ p.relTol
  · rw [if_pos h, if_pos h]
    rw [max_def, mul_comm]
    by_cases h2 : p.tol < p.relTol * o.norm f
    · simp [h2, h2.le]
    · by_cases h3 : p.tol ≤ p.relTol * o.norm f
      · simp only [if_neg h2, if_pos h3]; exact le_antisymm h3 (not_lt.mp h2)
      · simp [h2, h3]
  · rw [if_neg h, if_neg h]

/-- **C97** The number of cycles: at least one, at most `max_cycles` (when that is positive), and the loop stops at the first
cycle that reaches the tolerance. -/
theorem c97_cycles (o : Ops L F) (p : Par) (a : Alg) (f u : Vec L) (w : St L F) :
    1 ≤ (solve o p a f u w).1.k ∧ (((solve o p a f u w).1.k : ℕ) : ℤ) ≤ max 1 p.maxIter ∧
    (solve o p a f u w).1 =
      (step o p a f (start o p f u w).norm)^[(solve o p a f u w).1.k] (start o p f u w) ∧
    (∀ i, 1 ≤ i → i < (solve o p a f u w).1.k →
      effTol o p f < ((step o p a f (start o p f u w).norm)^[i] (start o p f u w)).norm) ∧
    ((solve o p a f u w).1.norm ≤ effTol o p f ∨ p.maxIter ≤ (((solve o p a f u w).1.k : ℕ) : ℤ)) := by
  obtain ⟨j, h1, h2, h3, h4⟩ := solve_trace o p a f u w
  have hk : (solve o p a f u w).1.k = j := by
    rw [h2, iter_k]; show 0 + j = j; omega
  rw [hk]
  refine ⟨h1, ?_, h2, fun i a1 a2 => (h3 i a1 a2).1, by rw [h2]; exact h4⟩
  by_cases hj : j = 1
  · subst hj; simp
  · have := (h3 (j - 1) (by omega) (by omega)).2
    exact le_max_of_le_right (by omega)

/-- **C97** (violated at the border) A solve that stops because the tolerance is met with equality is reported as failed: the
loop exits on `norm ≤ tol` and success means `norm < tol`. -/
theorem c97_violation_equality (o : Ops L F) (p : Par) (a : Alg) (f u : Vec L) (w : St L F)
    (h : (solve o p a f u w).1.norm = effTol o p f) : (solve o p a f u w).2 = false := by
  have : (solve o p a f u w).2 = decide ((solve o p a f u w).1.norm < effTol o p f) := rfl
  rw [this, h]; simp

theorem iter_factors (o : Ops L F) (p : Par) (a : Alg) (f : Vec L) (n0 : ℝ) (x : Outer L F) (hx : x.factors = []) (j : ℕ) :
    ((step o p a f n0)^[j] x).factors.length = j ∧
    ((∀ i, i < j → ((step o p a f n0)^[i] x).norm ≠ 0) →
      ((step o p a f n0)^[j] x).factors.prod * x.norm = ((step o p a f n0)^[j] x).norm) := by
  induction j with
  | zero => simp [hx]
  | succ j ih =>
    rw [Function.iterate_succ_apply']
    set y := (step o p a f n0)^[j] x with hy
    have hf : (step o p a f n0 y).factors =
        y.factors ++ [if y.norm ≠ 0 then (step o p a f n0 y).norm / y.norm else 0] := rfl
    refine ⟨by rw [hf]; simp [ih.1], fun h => ?_⟩
    have h0 : y.norm ≠ 0 := h j (by omega)
    have := ih.2 (fun i hi => h i (by omega))
    rw [hf, List.prod_append, List.prod_singleton, if_pos h0, mul_right_comm, this]
    field_simp

/-- **C97** The convergence factors: one per cycle, their product takes the initial norm to the final one; the net factor is
the ratio of the two up to the guard against division by zero; the average factor is the `k`-th root of the net one. -/
theorem c97_factors (o : Ops L F) (p : Par) (a : Alg) (f u : Vec L) (w : St L F) (ht : 0 ≤ effTol o p f)
    (hn : ∀ r, 0 ≤ o.norm r) (h0 : (start o p f u w).norm ≠ 0) :
    (solve o p a f u w).1.factors.length = (solve o p a f u w).1.k ∧
    (solve o p a f u w).1.factors.prod * (start o p f u w).norm = (solve o p a f u w).1.norm ∧
    (solve o p a f u w).1.net * ((start o p f u w).norm + 1e-20) = (solve o p a f u w).1.norm ∧
    (solve o p a f u w).1.avg ^ (solve o p a f u w).1.k = (solve o p a f u w).1.net := by
  obtain ⟨h1, -, h2, h3, -⟩ := c97_cycles o p a f u w
  generalize hj : (solve o p a f u w).1.k = j at *
  have hlen := iter_factors o p a f (start o p f u w).norm (start o p f u w) rfl j
  rw [← h2] at hlen
  refine ⟨hlen.1, hlen.2 ?_, ?_, ?_⟩
  · intro i hi
    by_cases hi0 : i = 0
    · subst hi0; exact h0
    · exact (lt_of_le_of_lt ht (h3 i (by omega) hi)).ne'
  · obtain ⟨j', rfl⟩ : ∃ i, j = i + 1 := ⟨j - 1, by omega⟩
    rw [h2, Function.iterate_succ_apply']
    have hpos : (start o p f u w).norm + 1e-20 ≠ 0 := by
      have : 0 ≤ (start o p f u w).norm := hn _
      have : (0 : ℝ) < 1e-20 := by norm_num
      positivity
    simp only [step]
    rw [div_mul_cancel₀ _ hpos]
  · obtain ⟨j', rfl⟩ : ∃ i, j = i + 1 := ⟨j - 1, by omega⟩
    rw [h2, Function.iterate_succ_apply']
    set y := (step o p a f (start o p f u w).norm)^[j'] (start o p f u w) with hy
    have hyk : y.k = j' := by rw [hy, iter_k]; show 0 + j' = j'; omega
    have hnet : 0 ≤ (step o p a f (start o p f u w).norm y).net := by
      have h5 : 0 ≤ (start o p f u w).norm := hn _
      refine div_nonneg (hn _) ?_
      have : (0 : ℝ) < 1e-20 := by norm_num
      positivity
    have havg : (step o p a f (start o p f u w).norm y).avg =
        (step o p a f (start o p f u w).norm y).net ^ ((1 : ℝ) / ((y.k + 1 : ℕ) : ℝ)) := rfl
    rw [havg, hyk, one_div]
    exact Real.rpow_inv_natCast_pow hnet (by omega)

/-- **C97** (violated at the border) With `max_cycles ≤ 0` one cycle is still done and its factor is stored although the array
was sized to `max_cycles`; with `max_cycles ≥ 1` the factors always fit. -/
theorem c97_violation_max_cycles (o : Ops L F) (p : Par) (a : Alg) (f u : Vec L) (w : St L F) :
    (((solve o p a f u w).1.factors.length : ℕ) : ℤ) ≤ p.maxIter ↔ 1 ≤ p.maxIter := by
  obtain ⟨h1, hb, h2, -, -⟩ := c97_cycles o p a f u w
  have hlen := (iter_factors o p a f (start o p f u w).norm (start o p f u w) rfl (solve o p a f u w).1.k).1
  rw [← h2] at hlen
  rw [hlen]
  constructor
  · intro h; omega
  · intro h; rwa [max_eq_right h] at hb

/-- **C97** The recursive cycle and the unrolled one ("pernice") do the same thing for every set of operators; so do the two
solves. -/
theorem c97_recursive_eq_unrolled (o : Ops L F) (p : Par) (f u : Vec L) (w : St L F) :
    (∀ n s, recursive o p n s = pernice o p n s) ∧ solve o p .default f u w = solve o p .pernice f u w := by
  have h : ∀ n s, recursive o p n s = pernice o p n s := by
    intro n
    induction n with
    | zero => intro s; rfl
    | succ n ih => intro s; simp only [recursive, pernice, descent, ascent, ih]
  have hs : ∀ n0, step o p .default f n0 = step o p .pernice f n0 := by
    intro n0; funext x
    simp only [step, cycle, h]
  have hl : ∀ n0 t n x, loop o p .default f n0 t n x = loop o p .pernice f n0 t n x := by
    intro n0 t n
    induction n with
    | zero => intro x; simp only [loop, hs]
    | succ n ih => intro x; simp only [loop, hs, ih]
  refine ⟨h, ?_⟩
  simp only [solve, hl]

/-- **C97** Nothing is carried over from one solve to the next: the result does not depend on the contents of the scratch
data, although they are never cleared. -/
theorem c97_scratch_irrelevant {o : Ops L F} {p : Par} (h : Sound o p) (a : Alg) (f u : Vec L) (w w' : St L F) :
    (solve o p a f u w).1.u = (solve o p a f u w').1.u ∧ (solve o p a f u w).1.norm = (solve o p a f u w').1.norm ∧
    (solve o p a f u w).1.k = (solve o p a f u w').1.k ∧ (solve o p a f u w).2 = (solve o p a f u w').2 := by
  let RL : L → L → L → Prop := fun x _ z => x = z
  let RF : F → F → F → Prop := fun x _ z => x = z
  have vec : ∀ {v v' v'' : Vec L}, V RL v v' v'' → v = v'' := fun hv => funext hv
  have hres : ∀ {e e'' r r'' : Vec L} {g g'' : F} (ln : ℤ) (b : Bool), ln ≤ p.lmin + p.n → e = e'' → r = r'' →
      (ln < p.lmin + p.n → g = g'') → o.residual e r ln b g = o.residual e'' r'' ln b g'' := by
    rintro e _ r _ g g'' ln b hl rfl rfl hg
    by_cases hlt : ln < p.lmin + p.n
    · rw [hg hlt]
    · rw [le_antisymm hl (not_lt.mp hlt)]; exact h.finest _ _ _ _ _
  have hc : Compat o p RL RF :=
    { coarse := fun he hr => by rw [vec he, show _ = _ from hr]
      smooth := fun _ _ he hr => by rw [vec he, show _ = _ from hr]
      residual := fun ln hl he hr hg => by
        have := hres ln true hl (vec he) (vec hr) hg
        exact ⟨congrArg Prod.fst this, congrArg Prod.snd this⟩
      restrictRes := fun _ hx hy => by rw [show _ = _ from hx, show _ = _ from hy]
      prolong := fun _ hx hy => by rw [show _ = _ from hx, show _ = _ from hy]
      add := fun hx hy => by rw [show _ = _ from hx, show _ = _ from hy]
      zero := rfl }
  have ho : CompatO o p RL RF :=
    { residual := fun ln hl he hr hg => by
        have := hres ln false hl (vec he) (vec hr) hg
        exact ⟨congrArg Prod.fst this, congrArg Prod.snd this⟩
      restrictSol := fun _ hx hy => by rw [show _ = _ from hx, show _ = _ from hy] }
  obtain ⟨s1, s2, s3⟩ := start_rel hc ho (f := f) (f' := f) (f'' := f) (u := u) (u' := u) (u'' := u) (fun _ => rfl)
    (fun _ => rfl) w w w'
  have hn0 : (start o p f u w).norm = (start o p f u w').norm := congrArg o.norm (vec s2)
  have hit : ∀ k, ((step o p a f (start o p f u w).norm)^[k] (start o p f u w)).u =
        ((step o p a f (start o p f u w').norm)^[k] (start o p f u w')).u ∧
      ((step o p a f (start o p f u w).norm)^[k] (start o p f u w)).norm =
        ((step o p a f (start o p f u w').norm)^[k] (start o p f u w')).norm := by
    intro k
    have := iter_rel hc ho a (f := f) (f' := f) (f'' := f) (fun _ => rfl) (start o p f u w).norm (start o p f u w).norm
      (start o p f u w').norm k s1 s2 s3
    refine ⟨vec this.1, ?_⟩
    cases k with
    | zero => exact hn0
    | succ k =>
      have e2 := vec this.2
      rw [Function.iterate_succ_apply', Function.iterate_succ_apply'] at e2 ⊢
      exact congrArg o.norm e2
  obtain ⟨j, a1, a2, a3, a4⟩ := solve_trace o p a f u w
  obtain ⟨j', b1, b2, b3, b4⟩ := solve_trace o p a f u w'
  have hjj : j = j' := by
    rcases lt_trichotomy j j' with hlt | heq | hgt
    · exfalso
      obtain ⟨g1, g2⟩ := b3 j a1 hlt
      rw [← (hit j).2] at g1
      rcases a4 with g | g
      · exact absurd g (not_le.mpr g1)
      · omega
    · exact heq
    · exfalso
      obtain ⟨g1, g2⟩ := a3 j' b1 hgt
      rw [(hit j').2] at g1
      rcases b4 with g | g
      · exact absurd g (not_le.mpr g1)
      · omega
  subst hjj
  have hnorm : (solve o p a f u w).1.norm = (solve o p a f u w').1.norm := by rw [a2, b2]; exact (hit j).2
  refine ⟨by rw [a2, b2]; exact (hit j).1, hnorm, ?_, ?_⟩
  · rw [a2, b2, iter_k, iter_k]; rfl
  · have hb : ∀ w, (solve o p a f u w).2 = decide ((solve o p a f u w).1.norm < effTol o p f) := fun _ => rfl
    rw [hb, hb, hnorm]

/-! ### Exact initial guess -/

/-- Homogeneous operators: no error and no residual give no correction. -/
structure ZeroOps (o : Ops L F) (p : Par) (z : F) : Prop where
  coarse : o.solveCoarsest (fun _ => o.zero) o.zero p.lmin = o.zero
  smooth : ∀ ln k, o.smooth (fun _ => o.zero) o.zero ln k = o.zero
  residual : ∀ ln, o.residual (fun _ => o.zero) (fun _ => o.zero) ln true z = (o.zero, z)
  restrictRes : ∀ ln, o.restrictRes o.zero o.zero ln = o.zero
  prolong : ∀ ln, o.prolong o.zero o.zero ln = o.zero
  add : ∀ x, o.add x o.zero = x
  norm : o.norm (fun _ => o.zero) = 0

/-- **C97** Started at an exact discrete solution, the solver does one cycle, returns that solution unchanged and reports a
norm of zero; it reports success exactly when the tolerance is positive. -/
theorem c97_exact_guess {o : Ops L F} {p : Par} (h : Sound o p) {z : F} (hz : ZeroOps o p z) (a : Alg) (f u : Vec L)
    (w : St L F) (hu : Consistent o p u) {r : Vec L} (hr : IsResidual o p f u r)
    (hr0 : ∀ l, p.lmin ≤ l → l ≤ p.lmin + p.n → r l = o.zero) (ht : 0 ≤ effTol o p f) :
    (solve o p a f u w).1.u = u ∧ (solve o p a f u w).1.k = 1 ∧ (solve o p a f u w).1.norm = 0 ∧
    ((solve o p a f u w).2 = true ↔ 0 < effTol o p f) := by
  let RL : L → L → L → Prop := fun x _ _ => x = o.zero
  let RF : F → F → F → Prop := fun x _ _ => x = z
  have vec : ∀ {v v' v'' : Vec L}, V RL v v' v'' → v = fun _ => o.zero := fun hv => funext hv
  have hc : Compat o p RL RF :=
    { coarse := fun he hr => by rw [vec he, show _ = _ from hr]; exact hz.coarse
      smooth := fun _ _ he hr => by rw [vec he, show _ = _ from hr]; exact hz.smooth _ _
      residual := fun {e e' e'' r r' r'' g g' g''} ln hl he hr hg => by
        have e1 : o.residual e r ln true g = (o.zero, z) := by
          rw [vec he, vec hr]
          by_cases hlt : ln < p.lmin + p.n
          · rw [show g = z from hg hlt]; exact hz.residual ln
          · rw [le_antisymm hl (not_lt.mp hlt), h.finest _ _ _ g z]; exact hz.residual _
        show (o.residual e r ln true g).1 = o.zero ∧ (o.residual e r ln true g).2 = z
        rw [e1]; exact ⟨rfl, rfl⟩
      restrictRes := fun _ hx hy => by rw [show _ = _ from hx, show _ = _ from hy]; exact hz.restrictRes _
      prolong := fun _ hx hy => by rw [show _ = _ from hx, show _ = _ from hy]; exact hz.prolong _
      add := fun hx hy => by rw [show _ = _ from hx, show _ = _ from hy]; exact hz.add _
      zero := rfl }
  -- the state before the first cycle
  obtain ⟨f1, f2⟩ := full_residual (f := f) (r := fun _ => o.zero) (g := w.o) hu
  have hsu : (start o p f u w).u = u := f1
  have hsr : (start o p f u w).w.r = fun _ => o.zero := by
    funext l
    by_cases hl : p.lmin ≤ l ∧ l ≤ p.lmin + p.n
    · exact (residual_unique h f2 hr l hl.1 hl.2).trans (hr0 l hl.1 hl.2)
    · have := ((fullLoop_spec o p.lmin f p.n u (put (fun _ => o.zero) (p.lmin + p.n)
        (o.residual u f (p.lmin + p.n) false (w.o (p.lmin + p.n + 1))).1)
        (put w.o (p.lmin + p.n) (o.residual u f (p.lmin + p.n) false (w.o (p.lmin + p.n + 1))).2)
        (fun l ha hb => hu l ⟨ha, hb⟩)).2.1 l (by omega)).1
      exact this.trans (put_ne _ _ (by omega))
  obtain ⟨c1, -, -⟩ := cycle_rel hc a (s := { (start o p f u w).w with e := fun _ => o.zero })
    (s' := { (start o p f u w).w with e := fun _ => o.zero }) (s'' := { (start o p f u w).w with e := fun _ => o.zero })
    ⟨fun _ => rfl, fun l => congrFun hsr l, fun _ => rfl, fun l h1 h2 => by omega⟩
  have he := vec c1
  have hadd : addErr o p (start o p f u w).u (cycle o p a { (start o p f u w).w with e := fun _ => o.zero }).e = u := by
    funext l
    rw [he, hsu]
    by_cases hl : p.lmin ≤ l ∧ l ≤ p.lmin + p.n
    · simp only [addErr, if_pos hl]; exact hz.add _
    · simp only [addErr, if_neg hl]
  have hsync : ∀ n : ℕ, n ≤ p.n → sync o p.lmin n u = u := by
    intro n
    induction n with
    | zero => intro _; rfl
    | succ n ih =>
      intro hn
      simp only [sync]
      rw [hu (p.lmin + n) ⟨by omega, by omega⟩]
      have : put u (p.lmin + n) (u (p.lmin + n)) = u := Function.update_eq_self _ _
      rw [this, ih (by omega)]
  have hstep : (step o p a f (start o p f u w).norm (start o p f u w)).u = u ∧
      (step o p a f (start o p f u w).norm (start o p f u w)).norm = 0 := by
    obtain ⟨g1, g2⟩ := full_residual (f := f) (r := (cycle o p a { (start o p f u w).w with e := fun _ => o.zero }).r)
      (g := (cycle o p a { (start o p f u w).w with e := fun _ => o.zero }).o) hu
    constructor
    · show (full o p f (sync o p.lmin p.n (addErr o p _ _)) _ _).1 = u
      rw [hadd, hsync p.n le_rfl]; exact g1
    · show o.norm (full o p f (sync o p.lmin p.n (addErr o p _ _)) _ _).2.1 = 0
      rw [hadd, hsync p.n le_rfl, ← hz.norm]
      exact h.norm _ _ (fun l h1 h2 => (residual_unique h g2 hr l h1 h2).trans (hr0 l h1 h2))
  obtain ⟨j, h1, h2, h3, h4⟩ := solve_trace o p a f u w
  have hj : j = 1 := by
    by_contra hne
    have := (h3 1 le_rfl (by omega)).1
    rw [Function.iterate_one, hstep.2] at this
    exact absurd this (not_lt.mpr ht)
  subst hj
  rw [Function.iterate_one] at h2
  have hb : (solve o p a f u w).2 = decide ((solve o p a f u w).1.norm < effTol o p f) := rfl
  rw [hb, h2]
  refine ⟨hstep.1, rfl, hstep.2, ?_⟩
  rw [hstep.2]; simp

/-! ### Linearity -/

section Linear
variable {L F : Type} [AddCommGroup L] [Module ℝ L] [AddCommGroup F] [Module ℝ F]

/-- All operators linear in everything they read. -/
structure LinOps (o : Ops L F) : Prop where
  coarse : ∀ (a b : ℝ) (e e' : Vec L) r r' ln, o.solveCoarsest (a • e + b • e') (a • r + b • r') ln =
    a • o.solveCoarsest e r ln + b • o.solveCoarsest e' r' ln
  smooth : ∀ (a b : ℝ) (e e' : Vec L) r r' ln k, o.smooth (a • e + b • e') (a • r + b • r') ln k =
    a • o.smooth e r ln k + b • o.smooth e' r' ln k
  residual : ∀ (a b : ℝ) (e e' r r' : Vec L) ln c g g',
    o.residual (a • e + b • e') (a • r + b • r') ln c (a • g + b • g') =
      a • o.residual e r ln c g + b • o.residual e' r' ln c g'
  restrictRes : ∀ (a b : ℝ) x x' y y' ln, o.restrictRes (a • x + b • x') (a • y + b • y') ln =
    a • o.restrictRes x y ln + b • o.restrictRes x' y' ln
  restrictSol : ∀ (a b : ℝ) x x' y y' ln, o.restrictSol (a • x + b • x') (a • y + b • y') ln =
    a • o.restrictSol x y ln + b • o.restrictSol x' y' ln
  prolong : ∀ (a b : ℝ) x x' y y' ln, o.prolong (a • x + b • x') (a • y + b • y') ln =
    a • o.prolong x y ln + b • o.prolong x' y' ln
  add : ∀ x y, o.add x y = x + y
  zero : o.zero = 0

theorem lin_compat {o : Ops L F} {p : Par} (h : Sound o p) (hl : LinOps o) (α β : ℝ) :
    Compat o p (fun x x' x'' => x'' = α • x + β • x') (fun x x' x'' => x'' = α • x + β • x') ∧
    CompatO o p (fun x x' x'' => x'' = α • x + β • x') (fun x x' x'' => x'' = α • x + β • x') := by
  have vec : ∀ {v v' v'' : Vec L}, V (fun x x' x'' => x'' = α • x + β • x') v v' v'' → v'' = α • v + β • v' :=
    fun hv => funext hv
  have hres : ∀ {e e' e'' r r' r'' : Vec L} {g g' g'' : F} (ln : ℤ) (c : Bool), ln ≤ p.lmin + p.n →
      V (fun x x' x'' => x'' = α • x + β • x') e e' e'' → V (fun x x' x'' => x'' = α • x + β • x') r r' r'' →
      (ln < p.lmin + p.n → g'' = α • g + β • g') →
      o.residual e'' r'' ln c g'' = α • o.residual e r ln c g + β • o.residual e' r' ln c g' := by
    intro e e' e'' r r' r'' g g' g'' ln c hl' he hr hg
    rw [vec he, vec hr, ← hl.residual]
    by_cases hlt : ln < p.lmin + p.n
    · rw [hg hlt]
    · rw [le_antisymm hl' (not_lt.mp hlt)]; exact h.finest _ _ _ _ _
  constructor
  · exact
    { coarse := fun he hr => by
        have := vec he
        subst this; subst hr; exact hl.coarse _ _ _ _ _ _ _
      smooth := fun _ _ he hr => by
        have := vec he
        subst this; subst hr; exact hl.smooth _ _ _ _ _ _ _ _
      residual := fun ln hl' he hr hg => by
        have := hres ln true hl' he hr hg
        exact ⟨congrArg Prod.fst this, congrArg Prod.snd this⟩
      restrictRes := fun _ hx hy => by subst hx; subst hy; exact hl.restrictRes _ _ _ _ _ _ _
      prolong := fun _ hx hy => by subst hx; subst hy; exact hl.prolong _ _ _ _ _ _ _
      add := fun hx hy => by
        subst hx; subst hy
        simp only [hl.add, smul_add]; exact add_add_add_comm _ _ _ _
      zero := by rw [hl.zero]; simp }
  · exact
    { residual := fun ln hl' he hr hg => by
        have := hres ln false hl' he hr hg
        exact ⟨congrArg Prod.fst this, congrArg Prod.snd this⟩
      restrictSol := fun _ hx hy => by subst hx; subst hy; exact hl.restrictSol _ _ _ _ _ _ _ }

/-- **C97** As a preconditioner (zero initial guess): with linear operators the map from right hand side to result is linear
on every set of right hand sides for which the same number of cycles is done. -/
theorem c97_linear {o : Ops L F} {p : Par} (h : Sound o p) (hl : LinOps o) (a : Alg) (α β : ℝ) (f f' : Vec L) (w w' w'' : St L F)
    (hk : (solve o p a f 0 w).1.k = (solve o p a f' 0 w').1.k)
    (hk' : (solve o p a f 0 w).1.k = (solve o p a (α • f + β • f') 0 w'').1.k) :
    (solve o p a (α • f + β • f') 0 w'').1.u = α • (solve o p a f 0 w).1.u + β • (solve o p a f' 0 w').1.u := by
  obtain ⟨hc, ho⟩ := lin_compat h hl α β (p := p)
  obtain ⟨s1, s2, s3⟩ := start_rel hc ho (f := f) (f' := f') (f'' := α • f + β • f') (u := 0) (u' := 0) (u'' := 0)
    (fun _ => rfl) (fun _ => by simp) w w' w''
  have e1 := (c97_cycles o p a f 0 w).2.2.1
  have e2 := (c97_cycles o p a f' 0 w').2.2.1
  have e3 := (c97_cycles o p a (α • f + β • f') 0 w'').2.2.1
  rw [← hk] at e2
  rw [← hk'] at e3
  rw [e1, e2, e3]
  exact funext (iter_rel hc ho a (f := f) (f' := f') (f'' := α • f + β • f') (fun _ => rfl) _ _ _ _ s1 s2 s3).1

/-- **C97** With `max_cycles = 1` the preconditioner is linear. -/
theorem c97_linear_one_cycle {o : Ops L F} {p : Par} (h : Sound o p) (hl : LinOps o) (a : Alg) (hm : p.maxIter = 1) (α β : ℝ)
    (f f' : Vec L) (w w' w'' : St L F) :
    (solve o p a (α • f + β • f') 0 w'').1.u = α • (solve o p a f 0 w).1.u + β • (solve o p a f' 0 w').1.u := by
  have hk : ∀ (f : Vec L) (w : St L F), (solve o p a f 0 w).1.k = 1 := by
    intro f w
    obtain ⟨h1, h2, -⟩ := c97_cycles o p a f 0 w
    rw [hm] at h2
    simp at h2
    omega
  exact c97_linear h hl a α β f f' w w' w'' (by rw [hk, hk]) (by rw [hk, hk])

end Linear

/-! ### Convergence -/

/-- **C97** If every cycle of the run reduces the norm by a factor `ρ` and `max_cycles` suffices for that factor, the solver
reports success (or stopped exactly at the tolerance). -/
theorem c97_converges (o : Ops L F) (p : Par) (a : Alg) (f u : Vec L) (w : St L F) (ρ : ℝ) (h0 : 0 ≤ ρ) (h1 : ρ ≤ 1)
    (hn : ∀ r, 0 ≤ o.norm r)
    (hcon : ∀ k, ((step o p a f (start o p f u w).norm)^[k + 1] (start o p f u w)).norm ≤
      ρ * ((step o p a f (start o p f u w).norm)^[k] (start o p f u w)).norm)
    (hbound : ρ ^ p.maxIter.toNat * (start o p f u w).norm < effTol o p f) :
    (solve o p a f u w).2 = true ∨ (solve o p a f u w).1.norm = effTol o p f := by
  obtain ⟨j, g1, g2, g3, g4⟩ := solve_trace o p a f u w
  have hit : ∀ k, ((step o p a f (start o p f u w).norm)^[k] (start o p f u w)).norm ≤ ρ ^ k * (start o p f u w).norm := by
    intro k
    induction k with
    | zero => simp
    | succ k ih =>
      refine (hcon k).trans ?_
      rw [pow_succ', mul_assoc]
      exact mul_le_mul_of_nonneg_left ih h0
  have hb : (solve o p a f u w).2 = decide ((solve o p a f u w).1.norm < effTol o p f) := rfl
  rw [hb, decide_eq_true_eq]
  rcases g4 with g | g
  · exact (by rw [g2]; exact g : (solve o p a f u w).1.norm ≤ effTol o p f).lt_or_eq
  · left
    rw [g2]
    refine lt_of_le_of_lt (hit j) (lt_of_le_of_lt ?_ hbound)
    refine mul_le_mul_of_nonneg_right ?_ (hn _)
    exact pow_le_pow_of_le_one h0 h1 (by omega)

/-! ### The McCormick cycle -/

/-- **C97** (what a cycle on two levels does): the fine level is smoothed, the coarse one solves for the restriction of what is left over
(given the data the coarse right hand side had where there is no fine level), its error is added and the fine level smoothed again. -/
theorem c97_two_levels (o : Ops L F) (p : Par) (s : St L F) :
    let fine := p.lmin + 1
    let e₁ := Function.update s.e fine (o.smooth s.e (s.r fine) fine p.pre)
    let left := (o.residual e₁ s.r fine true (s.o (fine + 1))).1
    let coarse := o.solveCoarsest e₁ (o.restrictRes left (s.r p.lmin) p.lmin) p.lmin
    let e₂ := Function.update (Function.update e₁ p.lmin coarse) fine (o.prolong coarse (e₁ fine) fine)
    (recursive o p 1 s).e = Function.update e₂ fine (o.smooth e₂ (s.r fine) fine p.post) := by
  have h1 : p.lmin + 1 ≠ p.lmin := by omega
  have h2 : p.lmin ≠ p.lmin + 1 := by omega
  simp [recursive, up, down, bottom, put, Function.update_of_ne h1, Function.update_of_ne h2]

/-- **C97** (violated by "mccormick-s4.3") The corrections computed do not depend on the restriction of the residual at all: it
is written to a temporary that is overwritten or never read, so the coarse levels never see what the fine level smoothing
left over. -/
theorem c97_violation_mccormick (o : Ops L F) (R : L → L → ℤ → L) (p : Par) (n : ℕ) (s : St L F) :
    (mcCormick { o with restrictRes := R } p n s).e = (mcCormick o p n s).e ∧ (mcCormick o p n s).r = s.r := by
  have key : ∀ (n : ℕ) (s s' : St L F), s.e = s'.e → s.r = s'.r → s.tmpE = s'.tmpE → s.o = s'.o →
      (mcCormick { o with restrictRes := R } p n s).e = (mcCormick o p n s').e ∧
      (mcCormick { o with restrictRes := R } p n s).tmpE = (mcCormick o p n s').tmpE ∧
      (mcCormick { o with restrictRes := R } p n s).o = (mcCormick o p n s').o ∧
      (mcCormick { o with restrictRes := R } p n s).r = s.r ∧ (mcCormick o p n s').r = s'.r := by
    intro n
    induction n with
    | zero =>
      intro s s' h1 h2 h3 h4
      simp only [mcCormick, bottom, h1, h2, h3, h4, and_self]
    | succ n ih =>
      intro s s' h1 h2 h3 h4
      obtain ⟨i1, i2, i3, i4, i5⟩ := ih
        (mcDown { o with restrictRes := R } (p.lmin + (n + 1 : ℕ)) (correct { o with restrictRes := R } (p.lmin + (n + 1 : ℕ)) p.pre s))
        (mcDown o (p.lmin + (n + 1 : ℕ)) (correct o (p.lmin + (n + 1 : ℕ)) p.pre s'))
        (by simp only [mcDown, correct, put_same, h1, h2, h3, h4])
        (by simp only [mcDown, correct, put_same, h1, h2, h3, h4])
        (by simp only [mcDown, correct, put_same, h1, h2, h3, h4])
        (by simp only [mcDown, correct, put_same, h1, h2, h3, h4])
      have r1 : (mcDown { o with restrictRes := R } (p.lmin + (n + 1 : ℕ))
          (correct { o with restrictRes := R } (p.lmin + (n + 1 : ℕ)) p.pre s)).r = s.r := rfl
      have r2 : (mcDown o (p.lmin + (n + 1 : ℕ)) (correct o (p.lmin + (n + 1 : ℕ)) p.pre s')).r = s'.r := rfl
      rw [r1] at i4; rw [r2] at i5
      have hcor : ∀ (A B : St L F) (ln k : ℤ), A.e = B.e → A.r = B.r → A.tmpE = B.tmpE → A.o = B.o →
          (correct { o with restrictRes := R } ln k { A with e := put A.e ln (o.prolong (A.e (ln - 1)) (A.e ln) ln) }).e =
            (correct o ln k { B with e := put B.e ln (o.prolong (B.e (ln - 1)) (B.e ln) ln) }).e ∧
          (correct { o with restrictRes := R } ln k { A with e := put A.e ln (o.prolong (A.e (ln - 1)) (A.e ln) ln) }).tmpE =
            (correct o ln k { B with e := put B.e ln (o.prolong (B.e (ln - 1)) (B.e ln) ln) }).tmpE ∧
          (correct { o with restrictRes := R } ln k { A with e := put A.e ln (o.prolong (A.e (ln - 1)) (A.e ln) ln) }).o =
            (correct o ln k { B with e := put B.e ln (o.prolong (B.e (ln - 1)) (B.e ln) ln) }).o := by
        intro A B ln k a1 a2 a3 a4
        simp only [correct, put_same, a1, a2, a3, a4, and_self]
      have hfin := hcor _ _ (p.lmin + (n + 1 : ℕ)) p.post i1 (by rw [i4, i5, h2]) i2 i3
      exact ⟨hfin.1, hfin.2.1, hfin.2.2, i4, i5⟩
  obtain ⟨k1, -, -, -, k2⟩ := key n s s rfl rfl rfl rfl
  exact ⟨k1, k2⟩

/-- Two levels, the coarse one covered, equation `u = f`: restriction copies, smoothing (if done at all) and the coarse solve
are exact. -/
noncomputable def twoLevel : Ops ℝ Unit where
  solveCoarsest := fun _ r _ => r
  smooth := fun e r ln k => if 0 < k then r else e ln
  residual := fun u f ln _ _ => (f ln - u ln, ())
  restrictRes := fun x _ _ => x
  restrictSol := fun x _ _ => x
  prolong := fun x y _ => y + x
  norm := fun r => |r 0| + |r 1|
  add := fun x y => x + y
  zero := 0

def twoPar (m : ℤ) (tol : ℝ) : Par := ⟨m, tol, -1, 1, 0, 0, 1⟩

theorem two_sound (m : ℤ) (tol : ℝ) : Sound twoLevel (twoPar m tol) where
  idem := fun _ _ _ => rfl
  finest := fun _ _ _ _ _ => rfl
  norm := fun r r' h => by
    have h0 := h 0 le_rfl (by norm_num [twoPar])
    have h1 := h 1 (by norm_num [twoPar]) (by norm_num [twoPar])
    simp only [twoLevel, h0, h1]

theorem two_step_mc (m : ℤ) (tol n0 d c : ℝ) (x : Outer ℝ Unit) (h0 : x.w.r 0 = d) (h1 : x.w.r 1 = d) (hu : x.u 1 = c - d) :
    (step twoLevel (twoPar m tol) .mccormick (fun _ => c) n0 x).w.r 0 = -d ∧
    (step twoLevel (twoPar m tol) .mccormick (fun _ => c) n0 x).w.r 1 = -d ∧
    (step twoLevel (twoPar m tol) .mccormick (fun _ => c) n0 x).u 1 = c + d ∧
    (step twoLevel (twoPar m tol) .mccormick (fun _ => c) n0 x).norm = 2 * |d| := by
  refine ⟨?_, ?_, ?_, ?_⟩ <;>
    simp [step, cycle, mcCormick, mcDown, correct, bottom, sync, full, fullLoop, addErr, twoLevel, twoPar, put,
      Function.update, h0, h1, hu] <;> ring_nf

theorem two_step_default (m : ℤ) (tol n0 d c : ℝ) (x : Outer ℝ Unit) (h0 : x.w.r 0 = d) (h1 : x.w.r 1 = d) (hu : x.u 1 = c - d) :
    (step twoLevel (twoPar m tol) .default (fun _ => c) n0 x).u 1 = c ∧
    (step twoLevel (twoPar m tol) .default (fun _ => c) n0 x).norm = 0 := by
  refine ⟨?_, ?_⟩ <;>
    simp [step, cycle, recursive, down, up, bottom, sync, full, fullLoop, addErr, twoLevel, twoPar, put,
      Function.update, h0, h1, hu]

/-- **C97** (violated by "mccormick-s4.3") The consequence: on two levels with exact smoothing before and none after the coarse
correction, where the default cycle solves `u = c` in one cycle, the McCormick form applies the coarse correction a second
time, never reduces the residual and fails for every `max_cycles`. -/
theorem c97_violation_mccormick_fails (m : ℤ) (tol c : ℝ) (w : St ℝ Unit) (ht : 0 < tol) (hc : tol < 2 * |c|) :
    (solve twoLevel (twoPar m tol) .default (fun _ => c) 0 w).2 = true ∧
    (solve twoLevel (twoPar m tol) .default (fun _ => c) 0 w).1.u 1 = c ∧
    (solve twoLevel (twoPar m tol) .mccormick (fun _ => c) 0 w).2 = false ∧
    (solve twoLevel (twoPar m tol) .mccormick (fun _ => c) 0 w).1.norm =
      (start twoLevel (twoPar m tol) (fun _ => c) 0 w).norm := by
  have he : effTol twoLevel (twoPar m tol) (fun _ => c) = tol := by simp [effTol, twoPar]
  set x := start twoLevel (twoPar m tol) (fun _ => c) 0 w with hx
  have s0 : x.w.r 0 = c := by simp [hx, start, full, fullLoop, twoLevel, twoPar, put, Function.update]
  have s1 : x.w.r 1 = c := by simp [hx, start, full, fullLoop, twoLevel, twoPar, put, Function.update]
  have su : x.u 1 = c - c := by simp [hx, start, full, fullLoop, twoLevel, twoPar, put, Function.update]
  have sn : x.norm = 2 * |c| := by
    have : x.norm = |x.w.r 0| + |x.w.r 1| := rfl
    rw [this, s0, s1]; ring
  obtain ⟨j, h1, h2, h3, h4⟩ := solve_trace twoLevel (twoPar m tol) .default (fun _ => c) 0 w
  rw [← hx] at h2 h3 h4
  obtain ⟨d1, d2⟩ := two_step_default m tol x.norm c c x s0 s1 su
  have hj : j = 1 := by
    by_contra hne
    have := (h3 1 le_rfl (by omega)).1
    rw [Function.iterate_one, d2, he] at this
    linarith
  subst hj
  rw [Function.iterate_one] at h2
  have hb : ∀ a, (solve twoLevel (twoPar m tol) a (fun _ => c) 0 w).2 =
      decide ((solve twoLevel (twoPar m tol) a (fun _ => c) 0 w).1.norm < effTol twoLevel (twoPar m tol) (fun _ => c)) :=
    fun _ => rfl
  have hit : ∀ k, ∃ d, |d| = |c| ∧
      ((step twoLevel (twoPar m tol) .mccormick (fun _ => c) x.norm)^[k] x).w.r 0 = d ∧
      ((step twoLevel (twoPar m tol) .mccormick (fun _ => c) x.norm)^[k] x).w.r 1 = d ∧
      ((step twoLevel (twoPar m tol) .mccormick (fun _ => c) x.norm)^[k] x).u 1 = c - d ∧
      ((step twoLevel (twoPar m tol) .mccormick (fun _ => c) x.norm)^[k] x).norm = 2 * |c| := by
    intro k
    induction k with
    | zero => exact ⟨c, rfl, s0, s1, su, sn⟩
    | succ k ih =>
      obtain ⟨d, e0, e1, e2, e3, -⟩ := ih
      rw [Function.iterate_succ_apply']
      obtain ⟨q1, q2, q3, q4⟩ := two_step_mc m tol x.norm d c _ e1 e2 e3
      exact ⟨-d, by rw [abs_neg, e0], q1, q2, by rw [q3]; ring, by rw [q4, e0]⟩
  have hmc : (solve twoLevel (twoPar m tol) .mccormick (fun _ => c) 0 w).1.norm = 2 * |c| := by
    obtain ⟨j, -, g2, -, -⟩ := solve_trace twoLevel (twoPar m tol) .mccormick (fun _ => c) 0 w
    rw [g2]
    obtain ⟨d, -, -, -, -, e⟩ := hit j
    exact e
  refine ⟨?_, ?_, ?_, ?_⟩
  · rw [hb, h2, d2, he]; simpa using ht
  · rw [h2]; exact d1
  · rw [hb, hmc, he]; simpa using hc.le
  · rw [hmc, sn]

/-! ### Tolerance-controlled cycles are not a linear map -/

/-- One level, equation `u = f`, a coarse solve that leaves the fraction `ρ` of the residual. -/
noncomputable def oneLevel (ρ : ℝ) : Ops ℝ Unit where
  solveCoarsest := fun _ r _ => (1 - ρ) * r
  smooth := fun e _ ln _ => e ln
  residual := fun u f ln _ _ => (f ln - u ln, ())
  restrictRes := fun x _ _ => x
  restrictSol := fun x _ _ => x
  prolong := fun _ y _ => y
  norm := fun r => |r 0|
  add := fun x y => x + y
  zero := 0

def onePar (m : ℤ) (tol : ℝ) : Par := ⟨m, tol, -1, 1, 1, 0, 0⟩

theorem one_lin (ρ : ℝ) : LinOps (oneLevel ρ) where
  coarse := fun a b e e' r r' ln => by simp only [oneLevel, smul_eq_mul]; ring
  smooth := fun a b e e' r r' ln k => by simp [oneLevel]
  residual := fun a b e e' r r' ln c g g' => by
    simp only [oneLevel, Pi.add_apply, Pi.smul_apply, smul_eq_mul, Prod.smul_mk, Prod.mk_add_mk]
    exact Prod.ext (by ring) rfl
  restrictRes := fun a b x x' y y' ln => rfl
  restrictSol := fun a b x x' y y' ln => rfl
  prolong := fun a b x x' y y' ln => rfl
  add := fun _ _ => rfl
  zero := rfl

theorem one_sound (ρ : ℝ) (m : ℤ) (tol : ℝ) : Sound (oneLevel ρ) (onePar m tol) where
  idem := fun _ _ _ => rfl
  finest := fun _ _ _ _ _ => rfl
  norm := fun r r' h => by
    have h0 := h 0 le_rfl (by norm_num [onePar])
    simp only [oneLevel, h0]

theorem one_iter (ρ : ℝ) (m : ℤ) (tol n0 c : ℝ) (w : St ℝ Unit) (a : Alg) (ha : a = .default) (k : ℕ) :
    ((step (oneLevel ρ) (onePar m tol) a (fun _ => c) n0)^[k] (start (oneLevel ρ) (onePar m tol) (fun _ => c) 0 w)).w.r 0 =
      ρ ^ k * c ∧
    ((step (oneLevel ρ) (onePar m tol) a (fun _ => c) n0)^[k] (start (oneLevel ρ) (onePar m tol) (fun _ => c) 0 w)).u 0 =
      (1 - ρ ^ k) * c ∧
    ((step (oneLevel ρ) (onePar m tol) a (fun _ => c) n0)^[k] (start (oneLevel ρ) (onePar m tol) (fun _ => c) 0 w)).norm =
      |ρ ^ k * c| := by
  subst ha
  induction k with
  | zero => simp [start, full, fullLoop, oneLevel, onePar, put, Function.update]
  | succ k ih =>
    rw [Function.iterate_succ_apply']
    obtain ⟨h1, h2, -⟩ := ih
    generalize (step (oneLevel ρ) (onePar m tol) .default (fun _ => c) n0)^[k]
      (start (oneLevel ρ) (onePar m tol) (fun _ => c) 0 w) = y at h1 h2
    refine ⟨?_, ?_, ?_⟩ <;>
      simp [step, cycle, recursive, bottom, sync, full, fullLoop, addErr, oneLevel, onePar, put, Function.update, h1, h2]
    · ring
    · ring
    · rw [show c - ((1 - ρ ^ k) * c + (1 - ρ) * (ρ ^ k * c)) = ρ ^ (k + 1) * c by ring, abs_mul, abs_pow]

/-- **C97** (violated with tolerance control) With linear operators but a tolerance deciding the number of cycles, the map from
right hand side to result is not linear: for every contraction and tolerance, and any `max_cycles ≥ 2`, there is a right hand
side for which doubling it does not double the result.  The Krylov method calling the solver assumes a fixed linear map. -/
theorem c97_violation_linear (ρ tol : ℝ) (m : ℤ) (hρ : 0 < ρ) (hρ1 : ρ < 1) (ht : 0 < tol) (hm : 2 ≤ m) (w w' : St ℝ Unit) :
    ∃ c : ℝ, (solve (oneLevel ρ) (onePar m tol) .default (fun _ => 2 * c) 0 w').1.u 0 ≠
      2 * (solve (oneLevel ρ) (onePar m tol) .default (fun _ => c) 0 w).1.u 0 := by
  refine ⟨tol / ρ, ?_⟩
  have he : ∀ f, effTol (oneLevel ρ) (onePar m tol) f = tol := by intro f; simp [effTol, onePar]
  have hc : 0 < tol / ρ := by positivity
  have hrc : ρ * (tol / ρ) = tol := by field_simp
  obtain ⟨j, h1, h2, h3, h4⟩ := solve_trace (oneLevel ρ) (onePar m tol) .default (fun _ => tol / ρ) 0 w
  obtain ⟨i, g1, g2, g3, g4⟩ := solve_trace (oneLevel ρ) (onePar m tol) .default (fun _ => 2 * (tol / ρ)) 0 w'
  have hj : j = 1 := by
    by_contra hne
    have := (h3 1 le_rfl (by omega)).1
    rw [(one_iter ρ m tol _ _ w .default rfl 1).2.2, he, pow_one, hrc, abs_of_pos ht] at this
    exact lt_irrefl _ this
  have hi : 2 ≤ i := by
    by_contra hlt
    have hi1 : i = 1 := by omega
    subst hi1
    rcases g4 with g | g
    · rw [(one_iter ρ m tol _ _ w' .default rfl 1).2.2, he, pow_one, show ρ * (2 * (tol / ρ)) = 2 * tol by linear_combination 2 * hrc,
        abs_of_pos (by positivity)] at g
      linarith
    · have : (onePar m tol).maxIter = m := rfl
      rw [this] at g; push_cast at g; omega
  subst hj
  rw [h2, g2, (one_iter ρ m tol _ _ w .default rfl 1).2.1, (one_iter ρ m tol _ _ w' .default rfl i).2.1, pow_one]
  intro h
  have hpow : ρ ^ i < ρ := by
    calc ρ ^ i ≤ ρ ^ 2 := pow_le_pow_of_le_one hρ.le hρ1.le hi
      _ < ρ := by nlinarith
  nlinarith

/-! ### Examples: the hypotheses are met -/

example (m : ℤ) (tol : ℝ) : Sound twoLevel (twoPar m tol) := two_sound m tol

example : ZeroOps twoLevel (twoPar 10 1) () where
  coarse := rfl
  smooth := fun ln k => by simp [twoLevel]
  residual := fun ln => by simp [twoLevel]
  restrictRes := fun _ => rfl
  prolong := fun _ => by simp [twoLevel]
  add := fun _ => by simp [twoLevel]
  norm := by simp [twoLevel]

/-- An exact solution of the two-level problem is consistent and has zero residual. -/
example (c : ℝ) : Consistent twoLevel (twoPar 10 1) (fun _ => c) ∧
    IsResidual twoLevel (twoPar 10 1) (fun _ => c) (fun _ => c) (fun _ => 0) :=
  ⟨fun _ _ => rfl, fun _ => (), ⟨(), by simp [twoLevel], rfl⟩, fun _ _ => ⟨rfl, rfl⟩⟩

example (ρ : ℝ) : LinOps (oneLevel ρ) ∧ Sound (oneLevel ρ) (onePar 1 1) := ⟨one_lin ρ, one_sound ρ 1 1⟩

/-- The contraction hypothesis is met by the one-level problem, for any right hand side. -/
example (w : St ℝ Unit) (c : ℝ) (hc : |c| ≤ 1) :
    (solve (oneLevel (1/4)) (onePar 5 (1/100)) .default (fun _ => c) 0 w).2 = true ∨
    (solve (oneLevel (1/4)) (onePar 5 (1/100)) .default (fun _ => c) 0 w).1.norm =
      effTol (oneLevel (1/4)) (onePar 5 (1/100)) (fun _ => c) := by
  refine c97_converges _ _ _ _ _ _ (1/4) (by norm_num) (by norm_num) (fun r => abs_nonneg _) ?_ ?_
  · intro k
    rw [(one_iter (1/4) 5 (1/100) _ c w .default rfl (k + 1)).2.2, (one_iter (1/4) 5 (1/100) _ c w .default rfl k).2.2,
      pow_succ', mul_assoc, abs_mul, abs_of_pos (by norm_num : (0 : ℝ) < 1/4)]
  · have h := (one_iter (1/4) 5 (1/100) 0 c w .default rfl 0).2.2
    simp only [Function.iterate_zero, id, pow_zero, one_mul] at h
    have he : effTol (oneLevel (1/4)) (onePar 5 (1/100)) (fun _ => c) = 1/100 := by simp [effTol, onePar]
    have hm : (onePar 5 (1/100)).maxIter.toNat = 5 := rfl
    rw [h, he, hm]
    nlinarith [abs_nonneg c]

end AMPE.FACSolve.Props
