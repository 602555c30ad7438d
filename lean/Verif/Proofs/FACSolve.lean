import Verif.Model.FACSolve
import Mathlib.Tactic.Linarith
import Mathlib.Tactic.Ring

/-! Helper lemmas for the multilevel solver: one logical relation for the cycles, the trace of the outer loop. -/

namespace AMPE.FACSolve

variable {L F : Type}

theorem put_same (v : Vec L) (ln : ℤ) (x : L) : put v ln x ln = x := by simp [put]
theorem put_ne (v : Vec L) {ln l : ℤ} (x : L) (h : l ≠ ln) : put v ln x l = v l := by simp [put, h]

/-- Three vectors related on every level. -/
def V (R : L → L → L → Prop) (v v' v'' : Vec L) : Prop := ∀ l, R (v l) (v' l) (v'' l)

theorem V.put {R : L → L → L → Prop} {v v' v'' : Vec L} (h : V R v v' v'') (ln : ℤ) {x x' x'' : L} (hx : R x x' x'') :
    V R (put v ln x) (put v' ln x') (put v'' ln x'') := by
  intro l
  by_cases hl : l = ln
  · subst hl; simpa [put_same] using hx
  · simpa [put_ne _ _ hl] using h l

/-- The operators of a cycle preserve a relation. -/
structure Compat (o : Ops L F) (p : Par) (RL : L → L → L → Prop) (RF : F → F → F → Prop) : Prop where
  coarse : ∀ {e e' e'' r r' r''}, V RL e e' e'' → RL r r' r'' →
    RL (o.solveCoarsest e r p.lmin) (o.solveCoarsest e' r' p.lmin) (o.solveCoarsest e'' r'' p.lmin)
  smooth : ∀ {e e' e'' r r' r''} (ln k), V RL e e' e'' → RL r r' r'' →
    RL (o.smooth e r ln k) (o.smooth e' r' ln k) (o.smooth e'' r'' ln k)
  residual : ∀ {e e' e'' r r' r'' g g' g''} (ln), ln ≤ p.lmin + p.n → V RL e e' e'' → V RL r r' r'' →
    (ln < p.lmin + p.n → RF g g' g'') →
    RL (o.residual e r ln true g).1 (o.residual e' r' ln true g').1 (o.residual e'' r'' ln true g'').1 ∧
    RF (o.residual e r ln true g).2 (o.residual e' r' ln true g').2 (o.residual e'' r'' ln true g'').2
  restrictRes : ∀ {x x' x'' y y' y''} (ln), RL x x' x'' → RL y y' y'' →
    RL (o.restrictRes x y ln) (o.restrictRes x' y' ln) (o.restrictRes x'' y'' ln)
  prolong : ∀ {x x' x'' y y' y''} (ln), RL x x' x'' → RL y y' y'' →
    RL (o.prolong x y ln) (o.prolong x' y' ln) (o.prolong x'' y'' ln)
  add : ∀ {x x' x'' y y' y''}, RL x x' x'' → RL y y' y'' → RL (o.add x y) (o.add x' y') (o.add x'' y'')
  zero : RL o.zero o.zero o.zero

/-- States related, with border fluxes related above level `lmin + m`. -/
structure RS (p : Par) (RL : L → L → L → Prop) (RF : F → F → F → Prop) (m : ℕ) (s s' s'' : St L F) : Prop where
  e : V RL s.e s'.e s''.e
  r : V RL s.r s'.r s''.r
  tmpE : V RL s.tmpE s'.tmpE s''.tmpE
  o : ∀ l, p.lmin + m < l → l ≤ p.lmin + p.n → RF (s.o l) (s'.o l) (s''.o l)

section
variable {o : Ops L F} {p : Par} {RL : L → L → L → Prop} {RF : F → F → F → Prop} (hc : Compat o p RL RF)
include hc

theorem bottom_rel {m : ℕ} {s s' s'' : St L F} (h : RS p RL RF m s s' s'') :
    RS p RL RF m (bottom o p s) (bottom o p s') (bottom o p s'') :=
  ⟨h.e.put _ (hc.coarse h.e (h.r _)), h.r, h.tmpE, h.o⟩

theorem down_rel {m : ℕ} (hm : m + 1 ≤ p.n) {s s' s'' : St L F} (h : RS p RL RF (m + 1) s s' s'') :
    RS p RL RF m (down o p (p.lmin + (m + 1 : ℕ)) s) (down o p (p.lmin + (m + 1 : ℕ)) s')
      (down o p (p.lmin + (m + 1 : ℕ)) s'') := by
  have he := h.e.put (p.lmin + (m + 1 : ℕ)) (hc.smooth (p.lmin + (m + 1 : ℕ)) p.pre h.e (h.r (p.lmin + (m + 1 : ℕ))))
  have hq := hc.residual (p.lmin + (m + 1 : ℕ)) (by omega) he h.r
    (fun hl => h.o (p.lmin + (m + 1 : ℕ) + 1) (by omega) (by omega))
  refine ⟨he, h.r.put _ (hc.restrictRes _ ?_ (h.r _)), h.tmpE, ?_⟩
  · simp only [put_same]; exact hq.1
  · intro l h1 h2
    simp only [down]
    by_cases hl : l = p.lmin + (m + 1 : ℕ)
    · subst hl; simp only [put_same]; exact hq.2
    · simp only [put_ne _ _ hl]; exact h.o l (by omega) h2

theorem up_rel {m : ℕ} (ln : ℤ) {s s' s'' : St L F} (h : RS p RL RF m s s' s'') :
    RS p RL RF m (up o p ln s) (up o p ln s') (up o p ln s'') := by
  have he := h.e.put ln (hc.prolong ln (h.e (ln - 1)) (h.e ln))
  exact ⟨he.put _ (hc.smooth _ _ he (h.r _)), h.r, h.tmpE, h.o⟩

theorem recursive_rel : ∀ (m : ℕ), m ≤ p.n → ∀ {s s' s'' : St L F}, RS p RL RF m s s' s'' →
    RS p RL RF 0 (recursive o p m s) (recursive o p m s') (recursive o p m s'')
  | 0, _, _, _, _, h => bottom_rel hc h
  | m + 1, hm, _, _, _, h => up_rel hc _ (recursive_rel m (by omega) (down_rel hc hm h))

theorem descent_rel : ∀ (m : ℕ), m ≤ p.n → ∀ {s s' s'' : St L F}, RS p RL RF m s s' s'' →
    RS p RL RF 0 (descent o p m s) (descent o p m s') (descent o p m s'')
  | 0, _, _, _, _, h => h
  | m + 1, hm, _, _, _, h => descent_rel m (by omega) (down_rel hc hm h)

theorem ascent_rel : ∀ (m : ℕ) {s s' s'' : St L F}, RS p RL RF 0 s s' s'' →
    RS p RL RF 0 (ascent o p m s) (ascent o p m s') (ascent o p m s'')
  | 0, _, _, _, h => bottom_rel hc h
  | m + 1, _, _, _, h => up_rel hc _ (ascent_rel m h)

theorem correct_rel {m j : ℕ} (hj : j ≤ p.n) (hmj : m ≤ j) (k : ℤ) {s s' s'' : St L F} (h : RS p RL RF m s s' s'') :
    RS p RL RF m (correct o (p.lmin + j) k s) (correct o (p.lmin + j) k s') (correct o (p.lmin + j) k s'') := by
  have hq := hc.residual (p.lmin + j) (by omega) h.e h.r (fun hl => h.o (p.lmin + j + 1) (by omega) (by omega))
  have ht := h.tmpE.put (p.lmin + j) hc.zero
  have ht2 := ht.put (p.lmin + j) (hc.smooth (p.lmin + j) k ht hq.1)
  refine ⟨?_, h.r, ?_, ?_⟩
  · simp only [correct, put_same]
    refine h.e.put _ (hc.add (h.e _) ?_)
    have := ht2 (p.lmin + j)
    simpa only [put_same] using this
  · simpa only [correct, put_same] using ht2
  · intro l h1 h2
    simp only [correct]
    by_cases hl : l = p.lmin + j
    · subst hl; simp only [put_same]; exact hq.2
    · simp only [put_ne _ _ hl]; exact h.o l (by omega) h2

theorem mcDown_rel {m : ℕ} (hm : m + 1 ≤ p.n) {s s' s'' : St L F} (h : RS p RL RF (m + 1) s s' s'') :
    RS p RL RF m (mcDown o (p.lmin + (m + 1 : ℕ)) s) (mcDown o (p.lmin + (m + 1 : ℕ)) s')
      (mcDown o (p.lmin + (m + 1 : ℕ)) s'') := by
  have hq := hc.residual (p.lmin + (m + 1 : ℕ)) (by omega) h.e h.r
    (fun hl => h.o (p.lmin + (m + 1 : ℕ) + 1) (by omega) (by omega))
  refine ⟨h.e.put _ hc.zero, h.r, h.tmpE, ?_⟩
  intro l h1 h2
  simp only [mcDown]
  by_cases hl : l = p.lmin + (m + 1 : ℕ)
  · subst hl; simp only [put_same]; exact hq.2
  · simp only [put_ne _ _ hl]; exact h.o l (by omega) h2

theorem mcCormick_rel : ∀ (m : ℕ), m ≤ p.n → ∀ {s s' s'' : St L F}, RS p RL RF m s s' s'' →
    RS p RL RF 0 (mcCormick o p m s) (mcCormick o p m s') (mcCormick o p m s'')
  | 0, _, _, _, _, h => bottom_rel hc h
  | m + 1, hm, _, _, _, h => by
    have h1 := mcCormick_rel m (by omega) (mcDown_rel hc hm (correct_rel hc hm le_rfl p.pre h))
    refine correct_rel hc hm (by omega) p.post (s := ⟨_, _, _, _, _⟩) (s' := ⟨_, _, _, _, _⟩) (s'' := ⟨_, _, _, _, _⟩)
      ⟨h1.e.put _ (hc.prolong _ (h1.e _) (h1.e _)), h1.r, h1.tmpE, h1.o⟩

theorem cycle_rel (a : Alg) {s s' s'' : St L F} (h : RS p RL RF p.n s s' s'') :
    (V RL (cycle o p a s).e (cycle o p a s').e (cycle o p a s'').e ∧
     V RL (cycle o p a s).r (cycle o p a s').r (cycle o p a s'').r ∧
     V RL (cycle o p a s).tmpE (cycle o p a s').tmpE (cycle o p a s'').tmpE) := by
  cases a
  · have := recursive_rel hc p.n le_rfl h; exact ⟨this.e, this.r, this.tmpE⟩
  · have := mcCormick_rel hc p.n le_rfl h; exact ⟨this.e, this.r, this.tmpE⟩
  · have := ascent_rel hc p.n (descent_rel hc p.n le_rfl h); exact ⟨this.e, this.r, this.tmpE⟩
  · exact ⟨h.e, h.r, h.tmpE⟩

end

/-- The operators of the outer iteration preserve a relation. -/
structure CompatO (o : Ops L F) (p : Par) (RL : L → L → L → Prop) (RF : F → F → F → Prop) : Prop where
  residual : ∀ {e e' e'' r r' r'' g g' g''} (ln), ln ≤ p.lmin + p.n → V RL e e' e'' → V RL r r' r'' →
    (ln < p.lmin + p.n → RF g g' g'') →
    RL (o.residual e r ln false g).1 (o.residual e' r' ln false g').1 (o.residual e'' r'' ln false g'').1 ∧
    RF (o.residual e r ln false g).2 (o.residual e' r' ln false g').2 (o.residual e'' r'' ln false g'').2
  restrictSol : ∀ {x x' x'' y y' y''} (ln), RL x x' x'' → RL y y' y'' →
    RL (o.restrictSol x y ln) (o.restrictSol x' y' ln) (o.restrictSol x'' y'' ln)

section
variable {o : Ops L F} {p : Par} {RL : L → L → L → Prop} {RF : F → F → F → Prop} (hc : Compat o p RL RF)
  (ho : CompatO o p RL RF)

include ho in
theorem sync_rel : ∀ (m : ℕ) {u u' u'' : Vec L}, V RL u u' u'' →
    V RL (sync o p.lmin m u) (sync o p.lmin m u') (sync o p.lmin m u'')
  | 0, _, _, _, h => h
  | m + 1, _, _, _, h => sync_rel m (h.put _ (ho.restrictSol _ (h _) (h _)))

include hc ho

theorem fullLoop_rel {f f' f'' : Vec L} (hf : V RL f f' f'') : ∀ (m : ℕ), m ≤ p.n →
    ∀ {x x' x'' : Vec L × Vec L × Vec F}, V RL x.1 x'.1 x''.1 → V RL x.2.1 x'.2.1 x''.2.1 →
    (∀ l, p.lmin + m ≤ l → l ≤ p.lmin + p.n → RF (x.2.2 l) (x'.2.2 l) (x''.2.2 l)) →
    V RL (fullLoop o p.lmin f m x).1 (fullLoop o p.lmin f' m x').1 (fullLoop o p.lmin f'' m x'').1 ∧
    V RL (fullLoop o p.lmin f m x).2.1 (fullLoop o p.lmin f' m x').2.1 (fullLoop o p.lmin f'' m x'').2.1
  | 0, _, _, _, _, h1, h2, _ => ⟨h1, h2⟩
  | m + 1, hm, x, x', x'', h1, h2, h3 => by
    have hu := h1.put (p.lmin + m) (ho.restrictSol (p.lmin + m) (h1 (p.lmin + m + 1)) (h1 (p.lmin + m)))
    have hq := ho.residual (p.lmin + m) (by omega) hu hf (fun hl => h3 (p.lmin + m + 1) (by push_cast; omega) (by omega))
    have hr := h2.put (p.lmin + m) hq.1
    refine fullLoop_rel hf m (by omega) (x := (_, _, _)) (x' := (_, _, _)) (x'' := (_, _, _)) hu
      (hr.put (p.lmin + m) (hc.restrictRes _ (hr _) (hr _))) ?_
    intro l hl1 hl2
    by_cases hl : l = p.lmin + m
    · subst hl; simp only [put_same]; exact hq.2
    · simp only [put_ne _ _ hl]; exact h3 l (by push_cast; omega) hl2

theorem full_rel {f f' f'' u u' u'' r r' r'' : Vec L} {g g' g'' : Vec F} (hf : V RL f f' f'') (hu : V RL u u' u'')
    (hr : V RL r r' r'') :
    V RL (full o p f u r g).1 (full o p f' u' r' g').1 (full o p f'' u'' r'' g'').1 ∧
    V RL (full o p f u r g).2.1 (full o p f' u' r' g').2.1 (full o p f'' u'' r'' g'').2.1 := by
  have hq := ho.residual (g := g (p.lmin + p.n + 1)) (g' := g' (p.lmin + p.n + 1)) (g'' := g'' (p.lmin + p.n + 1))
    (p.lmin + p.n) le_rfl hu hf (fun h => absurd h (lt_irrefl _))
  refine fullLoop_rel hc ho hf p.n le_rfl (x := (_, _, _)) (x' := (_, _, _)) (x'' := (_, _, _)) hu (hr.put _ hq.1) ?_
  intro l h1 h2
  have : l = p.lmin + p.n := le_antisymm h2 h1
  subst this
  simp only [put_same]; exact hq.2

/-- One pass preserves the relation of solution, residual and temporary error. -/
theorem step_rel (a : Alg) {f f' f'' : Vec L} (hf : V RL f f' f'') (n n' n'' : ℝ) {x x' x'' : Outer L F}
    (hu : V RL x.u x'.u x''.u) (hr : V RL x.w.r x'.w.r x''.w.r) (ht : V RL x.w.tmpE x'.w.tmpE x''.w.tmpE) :
    V RL (step o p a f n x).u (step o p a f' n' x').u (step o p a f'' n'' x'').u ∧
    V RL (step o p a f n x).w.r (step o p a f' n' x').w.r (step o p a f'' n'' x'').w.r ∧
    V RL (step o p a f n x).w.tmpE (step o p a f' n' x').w.tmpE (step o p a f'' n'' x'').w.tmpE := by
  have h0 : RS p RL RF p.n { x.w with e := fun _ => o.zero } { x'.w with e := fun _ => o.zero }
      { x''.w with e := fun _ => o.zero } := by
    refine ⟨fun _ => hc.zero, hr, ht, ?_⟩
    intro l h1 h2; omega
  obtain ⟨he, hr', ht'⟩ := cycle_rel hc a h0
  have hue : V RL (addErr o p x.u (cycle o p a { x.w with e := fun _ => o.zero }).e)
      (addErr o p x'.u (cycle o p a { x'.w with e := fun _ => o.zero }).e)
      (addErr o p x''.u (cycle o p a { x''.w with e := fun _ => o.zero }).e) := by
    intro l
    by_cases hl : p.lmin ≤ l ∧ l ≤ p.lmin + p.n
    · simp only [addErr, if_pos hl]; exact hc.add (hu l) (he l)
    · simp only [addErr, if_neg hl]; exact hu l
  have hs := sync_rel ho p.n hue
  have hfull := full_rel hc ho (g := (cycle o p a { x.w with e := fun _ => o.zero }).o)
    (g' := (cycle o p a { x'.w with e := fun _ => o.zero }).o)
    (g'' := (cycle o p a { x''.w with e := fun _ => o.zero }).o) hf hs hr'
  exact ⟨hfull.1, hfull.2, ht'⟩

theorem iter_rel (a : Alg) {f f' f'' : Vec L} (hf : V RL f f' f'') (n n' n'' : ℝ) : ∀ (k : ℕ) {x x' x'' : Outer L F},
    V RL x.u x'.u x''.u → V RL x.w.r x'.w.r x''.w.r → V RL x.w.tmpE x'.w.tmpE x''.w.tmpE →
    V RL ((step o p a f n)^[k] x).u ((step o p a f' n')^[k] x').u ((step o p a f'' n'')^[k] x'').u ∧
    V RL ((step o p a f n)^[k] x).w.r ((step o p a f' n')^[k] x').w.r ((step o p a f'' n'')^[k] x'').w.r
  | 0, _, _, _, h1, h2, _ => ⟨h1, h2⟩
  | k + 1, _, _, _, h1, h2, h3 => by
    simp only [Function.iterate_succ_apply]
    obtain ⟨g1, g2, g3⟩ := step_rel hc ho a hf n n' n'' h1 h2 h3
    exact iter_rel a hf n n' n'' k g1 g2 g3

theorem start_rel {f f' f'' u u' u'' : Vec L} (hf : V RL f f' f'') (hu : V RL u u' u'') (w w' w'' : St L F) :
    V RL (start o p f u w).u (start o p f' u' w').u (start o p f'' u'' w'').u ∧
    V RL (start o p f u w).w.r (start o p f' u' w').w.r (start o p f'' u'' w'').w.r ∧
    V RL (start o p f u w).w.tmpE (start o p f' u' w').w.tmpE (start o p f'' u'' w'').w.tmpE := by
  have := full_rel hc ho (g := w.o) (g' := w'.o) (g'' := w''.o) hf hu (r := fun _ => o.zero) (r' := fun _ => o.zero)
    (r'' := fun _ => o.zero) (fun _ => hc.zero)
  exact ⟨this.1, this.2, fun _ => hc.zero⟩

end

/-! ### Outer loop -/

section
variable (o : Ops L F) (p : Par) (a : Alg) (f : Vec L) (n0 tol : ℝ)

theorem step_k (x : Outer L F) : (step o p a f n0 x).k = x.k + 1 := rfl

theorem iter_k (k : ℕ) (x : Outer L F) : ((step o p a f n0)^[k] x).k = x.k + k := by
  induction k generalizing x with
  | zero => rfl
  | succ k ih => rw [Function.iterate_succ_apply, ih, step_k]; omega

theorem loop_spec : ∀ (n : ℕ) (x : Outer L F), p.maxIter ≤ x.k + n + 1 →
    ∃ j : ℕ, 1 ≤ j ∧ loop o p a f n0 tol n x = (step o p a f n0)^[j] x ∧
      (∀ i, 1 ≤ i → i < j → ((step o p a f n0)^[i] x).norm > tol ∧ ((x.k + i : ℕ) : ℤ) < p.maxIter) ∧
      (((step o p a f n0)^[j] x).norm ≤ tol ∨ p.maxIter ≤ ((x.k + j : ℕ) : ℤ))
  | 0, x, h => ⟨1, le_rfl, rfl, fun i h1 h2 => by omega, Or.inr (by push_cast; omega)⟩
  | n + 1, x, h => by
    by_cases hc : (step o p a f n0 x).norm > tol ∧ (((step o p a f n0 x).k : ℕ) : ℤ) < p.maxIter
    · obtain ⟨j, hj, he, hi, hend⟩ := loop_spec n (step o p a f n0 x) (by rw [step_k]; push_cast at h ⊢; omega)
      refine ⟨j + 1, by omega, ?_, ?_, ?_⟩
      · simp only [loop, if_pos hc, Function.iterate_succ_apply]; exact he
      · intro i h1 h2
        obtain ⟨i, rfl⟩ : ∃ i', i = i' + 1 := ⟨i - 1, by omega⟩
        rw [Function.iterate_succ_apply]
        by_cases h0 : i = 0
        · subst h0; rw [step_k] at hc; exact ⟨hc.1, by simpa using hc.2⟩
        · obtain ⟨g1, g2⟩ := hi i (by omega) (by omega)
          rw [step_k] at g2
          exact ⟨g1, by push_cast at g2 ⊢; omega⟩
      · rw [Function.iterate_succ_apply]
        rcases hend with g | g
        · exact Or.inl g
        · rw [step_k] at g; exact Or.inr (by push_cast at g ⊢; omega)
    · refine ⟨1, le_rfl, ?_, fun i h1 h2 => by omega, ?_⟩
      · simp only [loop, if_neg hc]; rfl
      · rw [step_k] at hc
        by_cases hn : (step o p a f n0 x).norm > tol
        · right
          by_contra hlt
          exact hc ⟨hn, by push_cast at hlt ⊢; omega⟩
        · left; simpa using hn

end

/-! ### Residual of the returned solution -/

theorem sync_spec (o : Ops L F) (lmin : ℤ) (hid : ∀ x y ln, o.restrictSol x (o.restrictSol x y ln) ln = o.restrictSol x y ln) :
    ∀ (n : ℕ) (u : Vec L), (∀ l, l < lmin ∨ lmin + n ≤ l → sync o lmin n u l = u l) ∧
      ∀ l, lmin ≤ l → l < lmin + n →
        o.restrictSol (sync o lmin n u (l + 1)) (sync o lmin n u l) l = sync o lmin n u l
  | 0, u => ⟨fun _ _ => rfl, fun l h1 h2 => by simp at h2; omega⟩
  | n + 1, u => by
    obtain ⟨h1, h2⟩ := sync_spec o lmin hid n (put u (lmin + n) (o.restrictSol (u (lmin + n + 1)) (u (lmin + n)) (lmin + n)))
    constructor
    · intro l hl
      simp only [sync]
      rw [h1 l (by push_cast at hl; omega), put_ne _ _ (by push_cast at hl; omega)]
    · intro l ha hb
      simp only [sync]
      by_cases hl : l < lmin + n
      · exact h2 l ha hl
      · have : l = lmin + n := by push_cast at hb; omega
        subst this
        rw [h1 _ (Or.inr le_rfl), h1 _ (Or.inr (by omega)), put_same, put_ne _ _ (by omega), hid]

theorem fullLoop_spec (o : Ops L F) (lmin : ℤ) (f : Vec L) :
    ∀ (n : ℕ) (u r : Vec L) (g : Vec F),
      (∀ l, lmin ≤ l → l < lmin + n → o.restrictSol (u (l + 1)) (u l) l = u l) →
      (fullLoop o lmin f n (u, r, g)).1 = u ∧
      (∀ l, l < lmin ∨ lmin + n ≤ l → (fullLoop o lmin f n (u, r, g)).2.1 l = r l ∧
        (fullLoop o lmin f n (u, r, g)).2.2 l = g l) ∧
      ∀ l, lmin ≤ l → l < lmin + n →
        (fullLoop o lmin f n (u, r, g)).2.1 l = o.restrictRes ((fullLoop o lmin f n (u, r, g)).2.1 (l + 1))
          (o.residual u f l false ((fullLoop o lmin f n (u, r, g)).2.2 (l + 1))).1 l ∧
        (fullLoop o lmin f n (u, r, g)).2.2 l =
          (o.residual u f l false ((fullLoop o lmin f n (u, r, g)).2.2 (l + 1))).2
  | 0, u, r, g, _ => ⟨rfl, fun _ _ => ⟨rfl, rfl⟩, fun l h1 h2 => by simp at h2; omega⟩
  | n + 1, u, r, g, hu => by
    have hself : put u (lmin + n) (o.restrictSol (u (lmin + n + 1)) (u (lmin + n)) (lmin + n)) = u := by
      rw [hu _ (by omega) (by push_cast; omega)]; exact Function.update_eq_self _ _
    simp only [fullLoop]
    rw [hself]
    set q := o.residual u f (lmin + n) false (g (lmin + n + 1)) with hq
    obtain ⟨h1, h2, h3⟩ := fullLoop_spec o lmin f n u
      (put (put r (lmin + n) q.1) (lmin + n) (o.restrictRes (put r (lmin + n) q.1 (lmin + n + 1))
        (put r (lmin + n) q.1 (lmin + n)) (lmin + n))) (put g (lmin + n) q.2)
      (fun l ha hb => hu l ha (by push_cast; omega))
    refine ⟨h1, ?_, ?_⟩
    · intro l hl
      obtain ⟨g1, g2⟩ := h2 l (by push_cast at hl; omega)
      rw [g1, g2, put_ne _ _ (by push_cast at hl; omega), put_ne _ _ (by push_cast at hl; omega),
        put_ne _ _ (by push_cast at hl; omega)]
      exact ⟨rfl, rfl⟩
    · intro l ha hb
      by_cases hl : l < lmin + n
      · exact h3 l ha hl
      · have : l = lmin + n := by push_cast at hb; omega
        subst this
        obtain ⟨a1, a2⟩ := h2 (lmin + n) (Or.inr le_rfl)
        obtain ⟨b1, b2⟩ := h2 (lmin + n + 1) (Or.inr (by omega))
        have e1 : (put (put r (lmin + ↑n) q.1) (lmin + ↑n) (o.restrictRes (put r (lmin + n) q.1 (lmin + n + 1))
            (put r (lmin + n) q.1 (lmin + n)) (lmin + n))) (lmin + n + 1) = r (lmin + n + 1) := by
          rw [put_ne _ _ (by omega), put_ne _ _ (by omega)]
        have e2 : put g (lmin + n) q.2 (lmin + n + 1) = g (lmin + n + 1) := put_ne _ _ (by omega)
        rw [e1] at b1; rw [e2] at b2
        rw [a1, a2, b1, b2, put_same, put_same, put_same, put_ne _ _ (by omega)]
        exact ⟨rfl, rfl⟩

end AMPE.FACSolve
