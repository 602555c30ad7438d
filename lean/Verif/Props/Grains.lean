import Verif.Model.Grains
import Verif.Props.Tools
import Mathlib.Logic.Relation
import Mathlib.Algebra.BigOperators.Fin
import Mathlib.Tactic.Linarith
import Mathlib.Tactic.Ring
import Mathlib.Tactic.NormNum
import Mathlib.Tactic.FieldSimp
import Mathlib.Tactic.Positivity
import Mathlib.Tactic.LinearCombination

/-!
# C19 - C23: grain labels, renumbering, grain tables, orientation extension
-/

namespace AMPE.Grains.Props

open AMPE.Grains AMPE.Tools

variable {V : Type} [DecidableEq V]

/-! ## C19: specification -/

/-- Two grain cells are neighbours. -/
def Adj (grain : V → Prop) (nbrs : V → List (Bool × V)) (u v : V) : Prop :=
  grain u ∧ grain v ∧ ∃ b, (b, v) ∈ nbrs u

/-- Connected through grain cells. -/
def Connected (grain : V → Prop) (nbrs : V → List (Bool × V)) : V → V → Prop :=
  Relation.ReflTransGen (Adj grain nbrs)

/-- Symmetric neighbour lists. -/
def SymNbrs (nbrs : V → List (Bool × V)) : Prop := ∀ u v b, (b, v) ∈ nbrs u → ∃ b', (b', u) ∈ nbrs v

theorem connected_symm {grain : V → Prop} {nbrs : V → List (Bool × V)} (hs : SymNbrs nbrs) {u v : V}
    (h : Connected grain nbrs u v) : Connected grain nbrs v u := by
  induction h with
  | refl => exact Relation.ReflTransGen.refl
  | tail _ h2 ih =>
    obtain ⟨g1, g2, b, hb⟩ := h2
    exact Relation.ReflTransGen.head ⟨g2, g1, hs _ _ _ hb⟩ ih

/-- Invariant of the fill with respect to the initial labels. -/
def Inv (nbrs : V → List (Bool × V)) (g0 g : V → ℤ) : Prop :=
  ∀ v, (g0 v < 0 → g v = g0 v) ∧
    (0 ≤ g0 v → g v ≤ g0 v ∧ ∃ u, 0 ≤ g0 u ∧ Connected (fun x => 0 ≤ g0 x) nbrs v u ∧ g v = g0 u)

theorem inv_init (nbrs : V → List (Bool × V)) (g0 : V → ℤ) : Inv nbrs g0 g0 :=
  fun v => ⟨fun _ => rfl, fun h => ⟨le_rfl, v, h, Relation.ReflTransGen.refl, rfl⟩⟩

theorem inv_nonneg {nbrs : V → List (Bool × V)} {g0 g : V → ℤ} (h : Inv nbrs g0 g) (v : V) :
    0 ≤ g v ↔ 0 ≤ g0 v := by
  constructor
  · intro hv
    by_contra hc
    have := (h v).1 (by omega)
    omega
  · intro hv
    obtain ⟨_, u, hu, _, e⟩ := (h v).2 hv
    omega

theorem visitNbr_inv {nbrs : V → List (Bool × V)} {g0 snap : V → ℤ} {v : V} {n : ℤ} (hn : 0 ≤ g0 v)
    (hn' : n ≤ g0 v) (hs : Inv nbrs g0 snap) {st : (V → ℤ) × Bool} (h : Inv nbrs g0 st.1) {nb : Bool × V}
    (hnb : nb ∈ nbrs v) : Inv nbrs g0 (visitNbr snap v n st nb).1 := by
  unfold visitNbr
  simp only
  split_ifs with hc
  · obtain ⟨hm0, hmn⟩ := hc
    intro w
    by_cases hw : w = v
    · subst hw
      simp only [Function.update_self]
      refine ⟨fun h0 => absurd hn (by omega), fun _ => ⟨by omega, ?_⟩⟩
      -- the value read belongs to a cell connected to the neighbour
      have hread : ∃ u, 0 ≤ g0 u ∧ Connected (fun x => 0 ≤ g0 x) nbrs nb.2 u ∧ readNbr snap st.1 nb = g0 u ∧
          0 ≤ g0 nb.2 := by
        unfold readNbr at hm0 ⊢
        split_ifs with hb
        · rw [if_pos hb] at hm0
          have h0 := (inv_nonneg hs nb.2).mp hm0
          obtain ⟨_, u, hu, hcu, e⟩ := (hs nb.2).2 h0
          exact ⟨u, hu, hcu, e, h0⟩
        · rw [if_neg hb] at hm0
          have h0 := (inv_nonneg h nb.2).mp hm0
          obtain ⟨_, u, hu, hcu, e⟩ := (h nb.2).2 h0
          exact ⟨u, hu, hcu, e, h0⟩
      obtain ⟨u, hu, hcu, e, h0⟩ := hread
      exact ⟨u, hu, Relation.ReflTransGen.head ⟨hn, h0, nb.1, hnb⟩ hcu, e⟩
    · simp only [Function.update_of_ne hw]
      exact h w
  · exact h

theorem visitNbrs_inv {nbrs : V → List (Bool × V)} {g0 snap : V → ℤ} {v : V} {n : ℤ} (hn : 0 ≤ g0 v)
    (hn' : n ≤ g0 v) (hs : Inv nbrs g0 snap) (l : List (Bool × V)) (hl : ∀ nb ∈ l, nb ∈ nbrs v) :
    ∀ st : (V → ℤ) × Bool, Inv nbrs g0 st.1 → Inv nbrs g0 (l.foldl (visitNbr snap v n) st).1 := by
  induction l with
  | nil => intro st h; exact h
  | cons a l ih =>
    intro st h
    rw [List.foldl_cons]
    exact ih (fun nb hnb => hl nb (List.mem_cons_of_mem _ hnb)) _
      (visitNbr_inv hn hn' hs h (hl a List.mem_cons_self))

theorem visitCell_inv {nbrs : V → List (Bool × V)} {wp : V → Bool} {g0 snap : V → ℤ} (hs : Inv nbrs g0 snap)
    {st : (V → ℤ) × Bool} (h : Inv nbrs g0 st.1) (v : V) : Inv nbrs g0 (visitCell nbrs wp snap st v).1 := by
  unfold visitCell
  simp only
  split_ifs with hc
  · have h0 := (inv_nonneg h v).mp hc.1
    exact visitNbrs_inv h0 ((h v).2 h0).1 hs _ (fun _ hnb => hnb) st h
  · exact h

theorem sweep_inv {cells : List V} {nbrs : V → List (Bool × V)} {wp : V → Bool} {g0 g : V → ℤ}
    (h : Inv nbrs g0 g) : Inv nbrs g0 (sweep cells nbrs wp g).1 := by
  unfold sweep
  suffices hh : ∀ (l : List V) (st : (V → ℤ) × Bool), Inv nbrs g0 st.1 →
      Inv nbrs g0 (l.foldl (visitCell nbrs wp g) st).1 from hh cells _ h
  intro l
  induction l with
  | nil => intro st hst; exact hst
  | cons a l ih => intro st hst; rw [List.foldl_cons]; exact ih _ (visitCell_inv h hst a)

/-- The flag never goes back to false, and while it is false the state is unchanged. -/
theorem visitNbrs_flag (snap : V → ℤ) (v : V) (n : ℤ) (l : List (Bool × V)) (st : (V → ℤ) × Bool)
    (h : (l.foldl (visitNbr snap v n) st).2 = false) :
    st.2 = false ∧ (l.foldl (visitNbr snap v n) st).1 = st.1 ∧
      ∀ nb ∈ l, ¬ (readNbr snap st.1 nb ≥ 0 ∧ readNbr snap st.1 nb < n) := by
  induction l generalizing st with
  | nil => exact ⟨h, rfl, by simp⟩
  | cons a l ih =>
    rw [List.foldl_cons] at h ⊢
    obtain ⟨h1, h2, h3⟩ := ih _ h
    have hstep : visitNbr snap v n st a = st ∧ ¬ (readNbr snap st.1 a ≥ 0 ∧ readNbr snap st.1 a < n) := by
      unfold visitNbr at h1 ⊢
      simp only at h1 ⊢
      split_ifs at h1 ⊢ with hc
      · exact ⟨rfl, hc⟩
    rw [hstep.1] at h1 h2 h3
    rw [hstep.1]
    refine ⟨h1, h2, fun nb hnb => ?_⟩
    rcases List.mem_cons.mp hnb with rfl | hnb
    · exact hstep.2
    · exact h3 nb hnb

theorem sweep_flag {cells : List V} {nbrs : V → List (Bool × V)} {wp : V → Bool} {g : V → ℤ}
    (h : (sweep cells nbrs wp g).2 = false) :
    (sweep cells nbrs wp g).1 = g ∧
      ∀ v ∈ cells, 0 ≤ g v → wp v = true → ∀ b u, (b, u) ∈ nbrs v → 0 ≤ g u → g v ≤ g u := by
  unfold sweep at h ⊢
  suffices hh : ∀ (l : List V) (st : (V → ℤ) × Bool), st.1 = g →
      (l.foldl (visitCell nbrs wp g) st).2 = false →
      st.2 = false ∧ (l.foldl (visitCell nbrs wp g) st).1 = g ∧
      ∀ v ∈ l, 0 ≤ g v → wp v = true → ∀ b u, (b, u) ∈ nbrs v → 0 ≤ g u → g v ≤ g u by
    obtain ⟨-, h2, h3⟩ := hh cells (g, false) rfl h
    exact ⟨h2, h3⟩
  intro l
  induction l with
  | nil => intro st hst hf; exact ⟨hf, hst, by simp⟩
  | cons a l ih =>
    intro st hst hf
    rw [List.foldl_cons] at hf ⊢
    have hcell : (visitCell nbrs wp g st a).1 = g ∧ (visitCell nbrs wp g st a).2 = st.2 ∨
        (visitCell nbrs wp g st a).2 = true := by
      cases hb : (visitCell nbrs wp g st a).2 with
      | true => exact Or.inr rfl
      | false =>
        left
        unfold visitCell at hb ⊢
        simp only at hb ⊢
        split_ifs at hb ⊢ with hc
        · obtain ⟨h1, h2, _⟩ := visitNbrs_flag _ _ _ _ _ hb
          exact ⟨h2.trans hst, h1.symm⟩
        · exact ⟨hst, hb.symm⟩
    rcases hcell with ⟨e1, e2⟩ | htrue
    · obtain ⟨h1, h2, h3⟩ := ih _ e1 hf
      refine ⟨by rw [← e2]; exact h1, h2, ?_⟩
      intro v hv hv0 hwp b u hbu hu
      rcases List.mem_cons.mp hv with rfl | hv
      · -- the cell was visited without change
        have hb : (visitCell nbrs wp g st v).2 = false := h1
        unfold visitCell at hb
        simp only at hb
        rw [hst, if_pos ⟨hv0, hwp⟩] at hb
        obtain ⟨_, _, h3'⟩ := visitNbrs_flag _ _ _ _ _ hb
        have := h3' (b, u) hbu
        have hr : readNbr g st.1 (b, u) = g u := by unfold readNbr; rw [hst]; split_ifs <;> rfl
        rw [hr] at this
        by_contra hlt
        exact this ⟨hu, by omega⟩
      · exact h3 v hv hv0 hwp b u hbu hu
    · exfalso
      -- the flag is sticky
      have sticky : ∀ (l : List V) (st : (V → ℤ) × Bool), st.2 = true →
          (l.foldl (visitCell nbrs wp g) st).2 = true := by
        intro l
        induction l with
        | nil => intro st h; exact h
        | cons c l ih2 =>
          intro st h
          rw [List.foldl_cons]
          apply ih2
          unfold visitCell
          simp only
          split_ifs
          · have : ∀ (l : List (Bool × V)) (st : (V → ℤ) × Bool), st.2 = true → ∀ n,
                (l.foldl (visitNbr g c n) st).2 = true := by
              intro l
              induction l with
              | nil => intro st h n; exact h
              | cons d l ih3 =>
                intro st h n
                rw [List.foldl_cons]
                apply ih3
                unfold visitNbr
                simp only
                split_ifs
                · rfl
                · exact h
            exact this _ _ h _
          · exact h
      rw [sticky l _ htrue] at hf
      exact Bool.noConfusion hf

/-- What the loop leaves: either it stopped because a sweep changed nothing, or it ran out of
iterations; the invariant holds in any case. -/
theorem bucketFill_spec (cells : List V) (nbrs : V → List (Bool × V)) (wp : V → Bool) (g0 : V → ℤ) :
    ∀ (fuel counter : ℕ) (g : V → ℤ), Inv nbrs g0 g →
      Inv nbrs g0 (bucketFill cells nbrs wp fuel counter g).1 ∧
      ((bucketFill cells nbrs wp fuel counter g).2 < counter + fuel →
        (sweep cells nbrs wp (bucketFill cells nbrs wp fuel counter g).1).2 = false) := by
  intro fuel
  induction fuel with
  | zero => intro counter g h; exact ⟨h, fun hlt => absurd hlt (by simp [bucketFill])⟩
  | succ fuel ih =>
    intro counter g h
    simp only [bucketFill]
    cases hr : (sweep cells nbrs wp g).2 with
    | true =>
      simp only [if_true]
      obtain ⟨h1, h2⟩ := ih (counter + 1) _ (sweep_inv h)
      exact ⟨h1, fun hlt => h2 (by omega)⟩
    | false =>
      simp only [Bool.false_eq_true, if_false]
      refine ⟨sweep_inv h, fun _ => ?_⟩
      rw [(sweep_flag hr).1]; exact hr

/-- **C19**: if the fill reports convergence (fewer iterations than the limit), two grain cells carry
the same label exactly if they are connected through grain cells, whatever the order in which cells are
visited and however the level is split into patches. -/
theorem c19_labels (cells : List V) (nbrs : V → List (Bool × V)) (wp : V → Bool) (phase : V → ℝ)
    (threshold : ℝ) (number : V → ℤ) (cap : ℕ)
    (hall : ∀ v, v ∈ cells) (hw : ∀ v, wp v = true) (hs : SymNbrs nbrs)
    (hnum : ∀ v, 0 ≤ number v) (hinj : ∀ u v, number u = number v → u = v)
    (hconv : (bucketFill cells nbrs wp cap 0 (initialLabels phase threshold number)).2 < cap) :
    let g := (bucketFill cells nbrs wp cap 0 (initialLabels phase threshold number)).1
    (∀ v, g v < 0 ↔ phase v < threshold) ∧
    ∀ u v, phase u ≥ threshold → phase v ≥ threshold →
      (g u = g v ↔ Connected (fun x => phase x ≥ threshold) nbrs u v) := by
  set g0 := initialLabels phase threshold number with hg0
  obtain ⟨hinv, hfix⟩ := bucketFill_spec cells nbrs wp g0 cap 0 g0 (inv_init nbrs g0)
  have hfix := sweep_flag (hfix (by simpa using hconv))
  have hgr : ∀ v, 0 ≤ g0 v ↔ phase v ≥ threshold := by
    intro v
    simp only [hg0, initialLabels]
    split_ifs with h
    · exact ⟨fun _ => h, fun _ => hnum v⟩
    · constructor
      · intro h'; omega
      · intro h'; exact absurd h' h
  have hval : ∀ v, phase v ≥ threshold → g0 v = number v := fun v h => by
    simp only [hg0, initialLabels]; rw [if_pos h]
  simp only
  set g := (bucketFill cells nbrs wp cap 0 g0).1
  have hgfun : (fun x => 0 ≤ g0 x) = fun x => phase x ≥ threshold := funext fun x => propext (hgr x)
  refine ⟨?_, ?_⟩
  · intro v
    have := inv_nonneg hinv v
    rw [hgr v] at this
    constructor
    · intro h; by_contra hc; have := this.mpr (not_lt.mp hc); omega
    · intro h; by_contra hc; have := this.mp (not_lt.mp hc); exact absurd h (not_lt.mpr this)
  · intro u v hu hv
    constructor
    · intro he
      obtain ⟨_, a, ha, hca, ea⟩ := (hinv u).2 ((hgr u).mpr hu)
      obtain ⟨_, b, hb, hcb, eb⟩ := (hinv v).2 ((hgr v).mpr hv)
      have hab : a = b := by
        apply hinj
        rw [← hval a ((hgr a).mp ha), ← hval b ((hgr b).mp hb)]
        omega
      rw [hgfun] at hca hcb
      subst hab
      exact hca.trans (connected_symm hs hcb)
    · intro hc
      induction hc with
      | refl => rfl
      | @tail b c hab hbc ih =>
        obtain ⟨gb, gc, bb, hbb⟩ := hbc
        obtain ⟨b', hb'⟩ := hs _ _ _ hbb
        have e := ih gb
        have p1 : 0 ≤ g b := (inv_nonneg hinv b).mpr ((hgr b).mpr gb)
        have p2 : 0 ≤ g c := (inv_nonneg hinv c).mpr ((hgr c).mpr gc)
        have l1 := hfix.2 b (hall b) p1 (hw b) bb c hbb p2
        have l2 := hfix.2 c (hall c) p2 (hw c) b' b hb' p1
        omega

/-- **C19**: at every iteration, also when the limit is reached, a label is never given to a cell that
is not connected to the cell the label started from (labels never leak between grains), and every grain
cell carries the initial label of a cell of its own grain. -/
theorem c19_no_leak (cells : List V) (nbrs : V → List (Bool × V)) (wp : V → Bool) (phase : V → ℝ)
    (threshold : ℝ) (number : V → ℤ) (cap : ℕ) (hnum : ∀ v, 0 ≤ number v) (v : V) (hv : phase v ≥ threshold) :
    ∃ u, phase u ≥ threshold ∧ Connected (fun x => phase x ≥ threshold) nbrs v u ∧
      (bucketFill cells nbrs wp cap 0 (initialLabels phase threshold number)).1 v = number u := by
  set g0 := initialLabels phase threshold number with hg0
  obtain ⟨hinv, -⟩ := bucketFill_spec cells nbrs wp g0 cap 0 g0 (inv_init nbrs g0)
  have hgr : ∀ v, 0 ≤ g0 v ↔ phase v ≥ threshold := by
    intro v
    simp only [hg0, initialLabels]
    split_ifs with h
    · exact ⟨fun _ => h, fun _ => hnum v⟩
    · constructor
      · intro h'; omega
      · intro h'; exact absurd h' h
  have hgfun : (fun x => 0 ≤ g0 x) = fun x => phase x ≥ threshold := funext fun x => propext (hgr x)
  obtain ⟨_, u, hu, hc, e⟩ := (hinv v).2 ((hgr v).mpr hv)
  rw [hgfun] at hc
  refine ⟨u, (hgr u).mp hu, hc, ?_⟩
  rw [e, hg0, initialLabels, if_pos ((hgr u).mp hu)]

/-! ### Termination without the iteration limit -/

/-- Potential of a label field. -/
def potential [Fintype V] (g : V → ℤ) : ℕ := ∑ v, (g v).toNat

theorem visitNbrs_effect (snap : V → ℤ) (v : V) (n : ℤ) (l : List (Bool × V)) (st : (V → ℤ) × Bool)
    (h : st.1 v = n ∨ (0 ≤ st.1 v ∧ st.1 v < n)) :
    let r := l.foldl (visitNbr snap v n) st
    (∀ w, w ≠ v → r.1 w = st.1 w) ∧ (r.1 v = n ∨ (0 ≤ r.1 v ∧ r.1 v < n)) ∧
    (r.2 = true → st.2 = true ∨ (0 ≤ r.1 v ∧ r.1 v < n)) ∧
    ((0 ≤ st.1 v ∧ st.1 v < n) → (0 ≤ r.1 v ∧ r.1 v < n)) := by
  induction l generalizing st with
  | nil => exact ⟨fun _ _ => rfl, h, fun h => Or.inl h, fun h => h⟩
  | cons a l ih =>
    simp only [List.foldl_cons]
    by_cases hc : readNbr snap st.1 a ≥ 0 ∧ readNbr snap st.1 a < n
    · have e : visitNbr snap v n st a = (Function.update st.1 v (readNbr snap st.1 a), true) := by
        unfold visitNbr; simp only; rw [if_pos hc]
      rw [e]
      obtain ⟨h1, h2, h3, h4⟩ := ih (Function.update st.1 v (readNbr snap st.1 a), true)
        (Or.inr (by simpa using hc))
      have h5 := h4 (by simpa using hc)
      refine ⟨?_, h2, fun _ => Or.inr h5, fun _ => h5⟩
      intro w hw
      rw [h1 w hw]; exact Function.update_of_ne hw _ _
    · have e : visitNbr snap v n st a = st := by unfold visitNbr; simp only; rw [if_neg hc]
      rw [e]; exact ih st h

theorem potential_lt [Fintype V] {g g' : V → ℤ} (v : V) (hne : ∀ w, w ≠ v → g' w = g w) (h : 0 ≤ g' v ∧ g' v < g v) :
    potential g' < potential g := by
  unfold potential
  apply Finset.sum_lt_sum
  · intro w _
    by_cases hw : w = v
    · subst hw; omega
    · rw [hne w hw]
  · exact ⟨v, Finset.mem_univ v, by omega⟩

theorem sweep_potential [Fintype V] (cells : List V) (nbrs : V → List (Bool × V)) (wp : V → Bool) (g : V → ℤ) :
    potential (sweep cells nbrs wp g).1 ≤ potential g ∧
      ((sweep cells nbrs wp g).2 = true → potential (sweep cells nbrs wp g).1 < potential g) := by
  unfold sweep
  suffices hh : ∀ (l : List V) (st : (V → ℤ) × Bool),
      potential (l.foldl (visitCell nbrs wp g) st).1 ≤ potential st.1 ∧
      ((l.foldl (visitCell nbrs wp g) st).2 = true → st.2 = true ∨
        potential (l.foldl (visitCell nbrs wp g) st).1 < potential st.1) by
    obtain ⟨h1, h2⟩ := hh cells (g, false)
    exact ⟨h1, fun h => (h2 h).resolve_left (by simp)⟩
  intro l
  induction l with
  | nil => intro st; exact ⟨le_rfl, fun h => Or.inl h⟩
  | cons a l ih =>
    intro st
    rw [List.foldl_cons]
    obtain ⟨h1, h2⟩ := ih (visitCell nbrs wp g st a)
    have hc : potential (visitCell nbrs wp g st a).1 ≤ potential st.1 ∧
        ((visitCell nbrs wp g st a).2 = true → st.2 = true ∨
          potential (visitCell nbrs wp g st a).1 < potential st.1) := by
      unfold visitCell
      simp only
      split_ifs with hif
      · obtain ⟨e1, e2, e3, _⟩ := visitNbrs_effect g a (st.1 a) (nbrs a) st (Or.inl rfl)
        refine ⟨?_, ?_⟩
        · rcases e2 with e2 | e2
          · have : ((nbrs a).foldl (visitNbr g a (st.1 a)) st).1 = st.1 := by
              funext w
              by_cases hw : w = a
              · subst hw; exact e2
              · exact e1 w hw
            rw [this]
          · exact (potential_lt a e1 e2).le
        · intro ht
          rcases e3 ht with e3 | e3
          · exact Or.inl e3
          · exact Or.inr (potential_lt a e1 e3)
      · exact ⟨le_rfl, fun h => Or.inl h⟩
    refine ⟨h1.trans hc.1, fun h => ?_⟩
    rcases h2 h with h3 | h3
    · rcases hc.2 h3 with h4 | h4
      · exact Or.inl h4
      · exact Or.inr (lt_of_le_of_lt h1 h4)
    · exact Or.inr (lt_of_lt_of_le h3 hc.1)

/-- **C19**: with a sufficiently large iteration limit the fill always converges. -/
theorem c19_terminates [Fintype V] (cells : List V) (nbrs : V → List (Bool × V)) (wp : V → Bool) (g : V → ℤ) :
    ∃ cap, ∀ cap', cap ≤ cap' → (bucketFill cells nbrs wp cap' 0 g).2 < cap' := by
  suffices h : ∀ (p : ℕ) (g : V → ℤ) (c : ℕ), potential g ≤ p → ∀ f, p + 2 ≤ f →
      (bucketFill cells nbrs wp f c g).2 < c + f by
    exact ⟨potential g + 2, fun cap' hc => by simpa using h (potential g) g 0 le_rfl cap' hc⟩
  intro p
  induction p with
  | zero =>
    intro g c hp f hf
    obtain ⟨f, rfl⟩ : ∃ k, f = k + 1 := ⟨f - 1, by omega⟩
    simp only [bucketFill]
    cases hr : (sweep cells nbrs wp g).2 with
    | true => have := (sweep_potential cells nbrs wp g).2 hr; omega
    | false => simp only [Bool.false_eq_true, if_false]; omega
  | succ p ih =>
    intro g c hp f hf
    obtain ⟨f, rfl⟩ : ∃ k, f = k + 1 := ⟨f - 1, by omega⟩
    simp only [bucketFill]
    cases hr : (sweep cells nbrs wp g).2 with
    | true =>
      have := (sweep_potential cells nbrs wp g).2 hr
      simp only [if_true]
      have := ih (sweep cells nbrs wp g).1 (c + 1) (by omega) f (by omega)
      omega
    | false => simp only [Bool.false_eq_true, if_false]; omega

/-- **C19**: the count reported is the number of sweeps made, at most the limit. -/
theorem c19_count (cells : List V) (nbrs : V → List (Bool × V)) (wp : V → Bool) (g : V → ℤ) (cap : ℕ) :
    (bucketFill cells nbrs wp cap 0 g).2 ≤ cap ∧
      (bucketFill cells nbrs wp cap 0 g).1 = (fun h => (sweep cells nbrs wp h).1)^[(bucketFill cells nbrs wp cap 0 g).2] g ∧
      (0 < cap → 0 < (bucketFill cells nbrs wp cap 0 g).2) := by
  suffices h : ∀ (f c : ℕ) (g : V → ℤ), ∃ n, n ≤ f ∧ (0 < f → 0 < n) ∧ (bucketFill cells nbrs wp f c g).2 = c + n ∧
      (bucketFill cells nbrs wp f c g).1 = (fun h => (sweep cells nbrs wp h).1)^[n] g by
    obtain ⟨n, h1, h2, h3, h4⟩ := h cap 0 g
    rw [h3, h4, Nat.zero_add]
    exact ⟨h1, rfl, h2⟩
  intro f
  induction f with
  | zero => intro c g; exact ⟨0, le_rfl, fun h => h, rfl, rfl⟩
  | succ f ih =>
    intro c g
    simp only [bucketFill]
    cases hr : (sweep cells nbrs wp g).2 with
    | true =>
      obtain ⟨n, h1, -, h3, h4⟩ := ih (c + 1) (sweep cells nbrs wp g).1
      refine ⟨n + 1, by omega, fun _ => by omega, ?_, ?_⟩
      · rw [if_pos rfl, h3]; omega
      · rw [if_pos rfl, h4, Function.iterate_succ_apply]
    | false => exact ⟨1, by omega, fun _ => by omega, rfl, rfl⟩

/-! ### The iteration limit cuts off winding grains -/

/-- Bound on the distance a label can have travelled after `k` sweeps: `p` counts the moves against the
scan order. -/
def Trav {n : ℕ} (p : Fin n → ℕ) (g0 : Fin n → ℤ) (k : ℕ) (g : Fin n → ℤ) (v : Fin n) : Prop :=
  0 ≤ g0 v → ∃ u, 0 ≤ g0 u ∧ g v = g0 u ∧ p v ≤ p u + k

theorem Trav.mono {n : ℕ} {p : Fin n → ℕ} {g0 g : Fin n → ℤ} {k : ℕ} {v : Fin n} (h : Trav p g0 k g v) :
    Trav p g0 (k + 1) g v := fun h0 => by
  obtain ⟨u, hu, e, hp⟩ := h h0
  exact ⟨u, hu, e, by omega⟩

/-- Slowness of a scan on cells `Fin n` in increasing order. -/
def Slow {n : ℕ} (nbrs : Fin n → List (Bool × Fin n)) (grain : Fin n → Bool) (p : Fin n → ℕ) : Prop :=
  ∀ v, grain v = true → ∀ nb ∈ nbrs v, grain nb.2 = true →
    nb.2 ≠ v ∧ p v ≤ p nb.2 + 1 ∧ (nb.1 = false ∧ nb.2 < v → p v ≤ p nb.2)

theorem sweep_trav {n : ℕ} {nbrs : Fin n → List (Bool × Fin n)} {wp : Fin n → Bool} {grain : Fin n → Bool}
    {p : Fin n → ℕ} (hslow : Slow nbrs grain p) {g0 g : Fin n → ℤ} (hgr : ∀ v, grain v = true ↔ 0 ≤ g0 v)
    (hinv : Inv nbrs g0 g) {k : ℕ} (h : ∀ v, Trav p g0 k g v) :
    ∀ v, Trav p g0 (k + 1) (sweep (List.finRange n) nbrs wp g).1 v := by
  suffices hh : ∀ (l : List (Fin n)) (st : (Fin n → ℤ) × Bool), l.Pairwise (· < ·) →
      (∀ x ∈ l, ∀ w, x ≤ w → w ∈ l) → Inv nbrs g0 st.1 →
      (∀ w, w ∈ l → Trav p g0 k st.1 w) → (∀ w, Trav p g0 (k + 1) st.1 w) →
      ∀ w, Trav p g0 (k + 1) (l.foldl (visitCell nbrs wp g) st).1 w by
    exact hh _ _ (List.pairwise_lt_finRange n) (fun _ _ w _ => List.mem_finRange w) hinv (fun w _ => h w)
      (fun w => (h w).mono)
  intro l
  induction l with
  | nil => intro st _ _ _ _ h2; exact h2
  | cons a l ih =>
    intro st hsort hup hst hin hout
    rw [List.foldl_cons]
    rw [List.pairwise_cons] at hsort
    -- effect of visiting `a`
    have hcell : (∀ w, w ≠ a → (visitCell nbrs wp g st a).1 w = st.1 w) ∧
        Trav p g0 (k + 1) (visitCell nbrs wp g st a).1 a := by
      unfold visitCell
      simp only
      split_ifs with hif
      · have ha0 : 0 ≤ g0 a := (inv_nonneg hst a).mp hif.1
        suffices hl : ∀ (m : List (Bool × Fin n)) (s : (Fin n → ℤ) × Bool), (∀ x ∈ m, x ∈ nbrs a) →
            (∀ w, w ≠ a → s.1 w = st.1 w) → Trav p g0 (k + 1) s.1 a →
            (∀ w, w ≠ a → (m.foldl (visitNbr g a (st.1 a)) s).1 w = st.1 w) ∧
            Trav p g0 (k + 1) (m.foldl (visitNbr g a (st.1 a)) s).1 a from
          hl _ _ (fun _ hx => hx) (fun _ _ => rfl) (hout a)
        intro m
        induction m with
        | nil => intro s _ h1 h2; exact ⟨h1, h2⟩
        | cons b m ihm =>
          intro s hm h1 h2
          rw [List.foldl_cons]
          apply ihm _ (fun x hx => hm x (List.mem_cons_of_mem _ hx))
          · intro w hw
            unfold visitNbr
            simp only
            split_ifs
            · rw [← h1 w hw]; exact Function.update_of_ne hw _ _
            · exact h1 w hw
          · unfold visitNbr
            simp only
            split_ifs with hc
            · intro _
              simp only [Function.update_self]
              have hb := hm b List.mem_cons_self
              have hread0 : 0 ≤ g0 b.2 := by
                unfold readNbr at hc
                split_ifs at hc with hbf
                · exact (inv_nonneg hinv b.2).mp hc.1
                · by_cases hba : b.2 = a
                  · rw [hba]; exact ha0
                  · rw [h1 b.2 hba] at hc; exact (inv_nonneg hst b.2).mp hc.1
              obtain ⟨hne, hp, hp'⟩ := hslow a ((hgr a).mpr ha0) b hb ((hgr b.2).mpr hread0)
              by_cases hbf : b.1 = true
              · obtain ⟨u, hu, e, hpu⟩ := h b.2 hread0
                refine ⟨u, hu, ?_, ?_⟩
                · unfold readNbr; rw [if_pos hbf]; exact e
                · omega
              · have hbf' : b.1 = false := by simpa using hbf
                by_cases hlt : b.2 < a
                · obtain ⟨u, hu, e, hpu⟩ := hout b.2 hread0
                  refine ⟨u, hu, ?_, ?_⟩
                  · unfold readNbr; rw [if_neg hbf, h1 b.2 hne]; exact e
                  · have := hp' ⟨hbf', hlt⟩; omega
                · have hmem : b.2 ∈ a :: l := hup a List.mem_cons_self b.2 (not_lt.mp hlt)
                  obtain ⟨u, hu, e, hpu⟩ := hin b.2 hmem hread0
                  refine ⟨u, hu, ?_, ?_⟩
                  · unfold readNbr; rw [if_neg hbf, h1 b.2 hne]; exact e
                  · omega
            · exact h2
      · exact ⟨fun _ _ => rfl, hout a⟩
    apply ih
    · exact hsort.2
    · intro x hx w hxw
      rcases List.mem_cons.mp (hup x (List.mem_cons_of_mem _ hx) w hxw) with rfl | hw
      · exact absurd hxw (not_le.mpr (hsort.1 x hx))
      · exact hw
    · exact visitCell_inv hinv hst a
    · intro w hw
      have hne : w ≠ a := fun he => lt_irrefl _ (he ▸ hsort.1 w hw)
      intro h0
      obtain ⟨u, hu, e, hpu⟩ := hin w (List.mem_cons_of_mem _ hw) h0
      exact ⟨u, hu, (hcell.1 w hne).trans e, hpu⟩
    · intro w
      by_cases hw : w = a
      · subst hw; exact hcell.2
      · intro h0
        obtain ⟨u, hu, e, hpu⟩ := hout w h0
        exact ⟨u, hu, (hcell.1 w hw).trans e, hpu⟩

theorem bucketFill_trav {n : ℕ} {nbrs : Fin n → List (Bool × Fin n)} {wp : Fin n → Bool} {grain : Fin n → Bool}
    {p : Fin n → ℕ} (hslow : Slow nbrs grain p) {g0 : Fin n → ℤ} (hgr : ∀ v, grain v = true ↔ 0 ≤ g0 v) :
    ∀ (fuel c k : ℕ) (g : Fin n → ℤ), Inv nbrs g0 g → (∀ v, Trav p g0 k g v) →
      ∀ v, Trav p g0 (k + fuel) (bucketFill (List.finRange n) nbrs wp fuel c g).1 v := by
  intro fuel
  induction fuel with
  | zero => intro c k g _ h; exact h
  | succ fuel ih =>
    intro c k g hi h
    simp only [bucketFill]
    have hs := sweep_trav (wp := wp) hslow hgr hi h
    split_ifs
    · have := ih (c + 1) (k + 1) _ (sweep_inv hi) hs
      intro v; have h1 := this v
      rw [show k + (fuel + 1) = k + 1 + fuel by omega]; exact h1
    · intro v h0
      obtain ⟨u, hu, e, hpu⟩ := hs v h0
      exact ⟨u, hu, e, by omega⟩

/-- **C19 (violation)**: a label cannot overtake the iteration limit.  If a grain winds against the scan
order more often than the limit allows, its two ends keep different labels although they are connected:
the grain is reported as several grains. -/
theorem c19_violation_winding {n : ℕ} (nbrs : Fin n → List (Bool × Fin n)) (wp : Fin n → Bool)
    (grain : Fin n → Bool) (p : Fin n → ℕ) (hslow : Slow nbrs grain p) (phase : Fin n → ℝ) (threshold : ℝ)
    (number : Fin n → ℤ) (cap : ℕ) (hnum : ∀ v, 0 ≤ number v)
    (hgr : ∀ v, grain v = true ↔ phase v ≥ threshold) (a b : Fin n)
    (ha : grain a = true) (hb : grain b = true)
    (hp : ∀ u, grain u = true → number u ≤ number a → p u + cap < p b) :
    (bucketFill (List.finRange n) nbrs wp cap 0 (initialLabels phase threshold number)).1 a ≠
      (bucketFill (List.finRange n) nbrs wp cap 0 (initialLabels phase threshold number)).1 b := by
  set g0 := initialLabels phase threshold number with hg0
  have hgr0 : ∀ v, grain v = true ↔ 0 ≤ g0 v := by
    intro v
    rw [hgr v]
    simp only [hg0, initialLabels]
    split_ifs with h
    · exact ⟨fun _ => hnum v, fun _ => h⟩
    · exact ⟨fun h' => absurd h' h, fun h' => by omega⟩
  have hval : ∀ v, grain v = true → g0 v = number v := fun v h => by
    simp only [hg0, initialLabels]; rw [if_pos ((hgr v).mp h)]
  have hinv := (bucketFill_spec (List.finRange n) nbrs wp g0 cap 0 g0 (inv_init nbrs g0)).1
  have ht := bucketFill_trav (wp := wp) hslow hgr0 cap 0 0 g0 (inv_init nbrs g0)
    (fun v h0 => ⟨v, h0, rfl, by omega⟩)
  intro he
  obtain ⟨u, hu, e, hpu⟩ := ht b ((hgr0 b).mp hb)
  obtain ⟨hle, w, hw, -, ew⟩ := (hinv a).2 ((hgr0 a).mp ha)
  have hug : grain u = true := (hgr0 u).mpr hu
  have hwg : grain w = true := (hgr0 w).mpr hw
  have h1 : number u = number w := by rw [← hval u hug, ← hval w hwg, ← e, ← ew, he]
  have h2 : number u ≤ number a := by
    rw [h1, ← hval w hwg, ← ew, ← hval a ha]; exact hle
  have := hp u hug h2
  omega

/-- Neighbours on an `nx` by `n / nx` patch with physical boundaries, in the order of the code. -/
def gridNbrs (nx n : ℕ) (v : Fin n) : List (Bool × Fin n) :=
  (if h : v.1 % nx + 1 < nx ∧ v.1 + 1 < n then [(false, ⟨v.1 + 1, h.2⟩)] else []) ++
  (if 0 < v.1 % nx then [(false, ⟨v.1 - 1, lt_of_le_of_lt (Nat.sub_le _ _) v.2⟩)] else []) ++
  (if h : v.1 + nx < n then [(false, ⟨v.1 + nx, h⟩)] else []) ++
  (if nx ≤ v.1 then [(false, ⟨v.1 - nx, lt_of_le_of_lt (Nat.sub_le _ _) v.2⟩)] else [])

/-- A winding grain one cell wide: rows 0, 2, 4, ... joined alternately at the right and left end. -/
def serpent (v : Fin 200) : Bool :=
  let i := v.1 % 10
  let j := v.1 / 10
  j < 19 && (j % 2 == 0 || (j % 4 == 1 && i == 9) || (j % 4 == 3 && i == 0))

/-- Number of moves to the left from the start. -/
def serpentPos (v : Fin 200) : ℕ :=
  let i := v.1 % 10
  let j := v.1 / 10
  if j % 4 = 0 then 9 * (j / 4) else if j % 4 = 1 then 9 * (j / 4)
  else if j % 4 = 2 then 9 * (j / 4) + (9 - i) else 9 * (j / 4) + 9

/-- Walk along the grain: the previous cell. -/
def serpentPrev (v : Fin 200) : Fin 200 :=
  let i := v.1 % 10
  let j := v.1 / 10
  if j % 4 = 0 then (if i = 0 then ⟨v.1 - 10, by omega⟩ else ⟨v.1 - 1, by omega⟩)
  else if j % 4 = 1 then ⟨v.1 - 10, by omega⟩
  else if j % 4 = 2 then (if i = 9 then ⟨v.1 - 10, by omega⟩ else ⟨(v.1 + 1) % 200, by omega⟩)
  else ⟨v.1 - 10, by omega⟩

/-- Position along the grain. -/
def serpentRank (v : Fin 200) : ℕ :=
  let i := v.1 % 10
  let j := v.1 / 10
  20 * j + (if j % 4 = 0 then i else if j % 4 = 2 then 9 - i else 0)

theorem serpent_slow : Slow (gridNbrs 10 200) serpent serpentPos := by
  have h : ∀ v : Fin 200, serpent v = true → ((gridNbrs 10 200 v).all fun nb => !serpent nb.2 ||
      (nb.2 != v && decide (serpentPos v ≤ serpentPos nb.2 + 1) &&
        (nb.1 || decide (v ≤ nb.2) || decide (serpentPos v ≤ serpentPos nb.2)))) = true := by decide +kernel
  intro v hv nb hnb hs
  have := List.all_eq_true.mp (h v hv) nb hnb
  simp only [hs, Bool.not_true, Bool.false_or, Bool.and_eq_true, bne_iff_ne, ne_eq, decide_eq_true_eq,
    Bool.or_eq_true] at this
  refine ⟨this.1.1, this.1.2, ?_⟩
  rintro ⟨h1, h2⟩
  rcases this.2 with (h3 | h3) | h3
  · rw [h1] at h3; exact Bool.noConfusion h3
  · exact absurd h2 (not_lt.mpr h3)
  · exact h3

theorem serpent_connected (v : Fin 200) (h : serpent v = true) :
    Connected (fun x => serpent x = true) (gridNbrs 10 200) 0 v := by
  have hprev : ∀ v : Fin 200, serpent v = true → v ≠ 0 →
      serpent (serpentPrev v) = true ∧ (false, v) ∈ gridNbrs 10 200 (serpentPrev v) := by decide +kernel
  have hrank : ∀ v : Fin 200, serpent v = true → v ≠ 0 → serpentRank (serpentPrev v) < serpentRank v := by
    decide +kernel
  suffices hh : ∀ (k : ℕ) (v : Fin 200), serpent v = true → serpentRank v ≤ k →
      Connected (fun x => serpent x = true) (gridNbrs 10 200) 0 v from hh _ v h le_rfl
  intro k
  induction k with
  | zero =>
    intro v hv hk
    by_cases h0 : v = 0
    · subst h0; exact Relation.ReflTransGen.refl
    · have := hrank v hv h0; omega
  | succ k ih =>
    intro v hv hk
    by_cases h0 : v = 0
    · subst h0; exact Relation.ReflTransGen.refl
    · obtain ⟨h1, h2⟩ := hprev v hv h0
      have := hrank v hv h0
      exact Relation.ReflTransGen.tail (ih _ h1 (by omega)) ⟨h1, hv, false, h2⟩

/-- **C19 (violation)**: on a single 10 by 20 patch the limit is 40 sweeps; the winding grain is one
connected grain, but after the limit its two ends carry different labels. -/
theorem c19_violation_limit :
    let phase : Fin 200 → ℝ := fun v => if serpent v then 1 else 0
    let g := (bucketFill (List.finRange 200) (gridNbrs 10 200) (fun _ => true) (maxIterationCount [10, 20]) 0
      (initialLabels phase (1 / 2) (fun v => (v.1 : ℤ)))).1
    Connected (fun x => phase x ≥ 1 / 2) (gridNbrs 10 200) 0 180 ∧ g 0 ≠ g 180 := by
  intro phase g
  have hph : ∀ v, serpent v = true ↔ phase v ≥ 1 / 2 := by
    intro v
    simp only [phase]
    by_cases h : serpent v = true
    · simp only [h, if_true, true_iff]; norm_num
    · simp only [h, Bool.false_eq_true, if_false, false_iff]; norm_num
  refine ⟨?_, ?_⟩
  · have := serpent_connected 180 (by decide)
    have hf : (fun x => serpent x = true) = fun x => phase x ≥ 1 / 2 := funext fun x => propext (hph x)
    rw [hf] at this; exact this
  · apply c19_violation_winding (gridNbrs 10 200) (fun _ => true) serpent serpentPos serpent_slow phase (1 / 2)
      (fun v => (v.1 : ℤ)) _ (fun v => by positivity) hph 0 180
      (by decide) (by decide)
    · intro u _ hu
      have hu0 : u = 0 := by
        apply Fin.ext
        have : (u.1 : ℤ) ≤ 0 := by simpa using hu
        simp only [Fin.val_zero]; omega
      subst hu0
      decide

/-- Non-trivial instance of `c19_labels`: two grains on a 3 by 1 patch, split in two patches. -/
example : (bucketFill (List.finRange 3) (gridNbrs 3 3) (fun _ => true) (maxIterationCount [3, 1]) 0
    (fun v => if v = 1 then -1 else (v.1 : ℤ))).2 < maxIterationCount [3, 1] := by decide +kernel

theorem limit_fold (ws : List ℕ) : ∀ m : ℕ, m ≤ ws.foldl (fun m w => if w > m then 2 * w else m) m ∧
    (∀ w ∈ ws, w ≤ ws.foldl (fun m w => if w > m then 2 * w else m) m) ∧
    ∀ b, m ≤ 2 * b → (∀ w ∈ ws, w ≤ b) → ws.foldl (fun m w => if w > m then 2 * w else m) m ≤ 2 * b := by
  induction ws with
  | nil => intro m; simp
  | cons a ws ih =>
    intro m
    simp only [List.foldl_cons]
    obtain ⟨h1, h2, h3⟩ := ih (if a > m then 2 * a else m)
    have hm : m ≤ (if a > m then 2 * a else m) := by split_ifs <;> omega
    have ha : a ≤ (if a > m then 2 * a else m) := by split_ifs <;> omega
    refine ⟨hm.trans h1, ?_, ?_⟩
    · intro w hw
      rcases List.mem_cons.mp hw with rfl | hw
      · exact ha.trans h1
      · exact h2 w hw
    · intro b hb hall
      apply h3 b _ (fun w hw => hall w (List.mem_cons_of_mem _ hw))
      have := hall a List.mem_cons_self
      split_ifs <;> omega

/-- **C19**: the limit on the number of sweeps lies between twice and four times the largest width, and is four times
the first width when no other width exceeds twice the first. -/
theorem c19_limit_value (a : ℕ) (ws : List ℕ) :
    (∀ w ∈ a :: ws, 2 * w ≤ maxIterationCount (a :: ws)) ∧
    (∀ b, (∀ w ∈ a :: ws, w ≤ b) → maxIterationCount (a :: ws) ≤ 4 * b) ∧
    ((∀ w ∈ ws, w ≤ 2 * a) → maxIterationCount (a :: ws) = 4 * a) := by
  obtain ⟨-, h2, h3⟩ := limit_fold (a :: ws) 0
  refine ⟨fun w hw => ?_, fun b hb => ?_, fun h => ?_⟩
  · have := h2 w hw; unfold maxIterationCount; omega
  · have := h3 b (by omega) hb; unfold maxIterationCount; omega
  · have : ∀ (l : List ℕ), (∀ w ∈ l, w ≤ 2 * a) → l.foldl (fun m w => if w > m then 2 * w else m) (2 * a) = 2 * a := by
      intro l
      induction l with
      | nil => intro _; rfl
      | cons b l ih =>
        intro hl
        rw [List.foldl_cons, if_neg (by have := hl b List.mem_cons_self; omega)]
        exact ih fun w hw => hl w (List.mem_cons_of_mem _ hw)
    unfold maxIterationCount
    rw [List.foldl_cons]
    rcases Nat.eq_zero_or_pos a with rfl | ha
    · rw [if_neg (by omega)]; have := this ws h; simp only [Nat.mul_zero] at this ⊢; rw [this]
    · rw [if_pos (by omega), this ws h]; ring

/-! ## C20 -/

/-- **C20 (violation)**: the set-up of the strides always writes one entry past the end of
`level_stride`. -/
theorem c20_violation_write (ndim nlevels : ℕ) (h : 1 ≤ nlevels) : strideSetup ndim nlevels = none := by
  unfold strideSetup
  rw [if_neg]
  intro hall
  rw [List.all_eq_true] at hall
  rcases Nat.eq_zero_or_pos ndim with rfl | hd
  · have := hall 0 (by
      rw [List.mem_flatMap]
      exact ⟨0, List.mem_range.mpr h, by simp [strideWrites]⟩)
    simp at this
  · have := hall (nlevels * ndim) (by
      rw [List.mem_flatMap]
      refine ⟨nlevels - 1, List.mem_range.mpr (by omega), ?_⟩
      unfold strideWrites
      apply List.mem_cons_of_mem
      rw [List.mem_map]
      refine ⟨ndim - 1, List.mem_range.mpr (by omega), ?_⟩
      obtain ⟨m, rfl⟩ : ∃ m, nlevels = m + 1 := ⟨nlevels - 1, by omega⟩
      obtain ⟨d, rfl⟩ : ∃ d, ndim = d + 1 := ⟨ndim - 1, by omega⟩
      simp only [Nat.add_sub_cancel]
      ring)
    simp at this

/-- A cell lies in the bounding box of its level. -/
def InBox : List ℤ → List ℤ → List ℤ → Prop
  | [], [], [] => True
  | l :: ls, w :: ws, c :: cs => l ≤ c ∧ c < l + w ∧ InBox ls ws cs
  | _, _, _ => False

theorem strides_scale (ns : List ℤ) : ∀ (s : ℤ) (c : List ℤ),
    ((strides s ns).zipWith (· * ·) c).sum = s * ((strides 1 ns).zipWith (· * ·) c).sum := by
  induction ns with
  | nil => intro s c; simp [strides]
  | cons n ns ih =>
    intro s c
    cases c with
    | nil => simp
    | cons c0 c =>
      simp only [strides, List.zipWith_cons_cons, List.sum_cons, one_mul]
      rw [ih (s * n) c, ih n c]
      ring

theorem radix_inj (ns : List ℤ) : ∀ (ls c c' : List ℤ), InBox ls ns c → InBox ls ns c' →
    ((strides 1 ns).zipWith (· * ·) c).sum = ((strides 1 ns).zipWith (· * ·) c').sum → c = c' := by
  induction ns with
  | nil =>
    intro ls c c' h h' _
    cases ls <;> cases c <;> cases c' <;> simp_all [InBox]
  | cons n ns ih =>
    intro ls c c' h h' e
    cases ls with
    | nil => cases c <;> simp [InBox] at h
    | cons l ls =>
      cases c with
      | nil => simp [InBox] at h
      | cons a c =>
        cases c' with
        | nil => simp [InBox] at h'
        | cons a' c' =>
          obtain ⟨h1, h2, h3⟩ := h
          obtain ⟨h1', h2', h3'⟩ := h'
          simp only [strides, List.zipWith_cons_cons, List.sum_cons, one_mul] at e
          rw [strides_scale ns n c, strides_scale ns n c'] at e
          set r := ((strides 1 ns).zipWith (· * ·) c).sum
          set r' := ((strides 1 ns).zipWith (· * ·) c').sum
          have hn : 0 < n := by omega
          have hr : r = r' := by
            rcases lt_trichotomy r r' with hlt | he | hgt
            · nlinarith
            · exact he
            · nlinarith
          have ha : a = a' := by rw [hr] at e; omega
          rw [ha, ih ls c c' h3 h3' hr]

/-- **C20** (within a level; across levels see the violation): two different cells of the same level get
different initial labels, in any dimension and for any bounding box. -/
theorem c20_unique_in_level_partial (levels : List LevelBox) (ln : ℕ) (L : LevelBox) (hL : levels[ln]? = some L)
    (c c' : List ℤ) (h : InBox L.lower L.widths c) (h' : InBox L.lower L.widths c')
    (e : cellNumber levels ln c = cellNumber levels ln c') : c = c' := by
  unfold cellNumber at e
  rw [hL] at e
  simp only [Option.map_some, Option.some.injEq] at e
  exact radix_inj _ _ _ _ h h' (by linarith)

/-- **C20**: labels are non-negative (so that the cell counts as labelled) when the index space starts at
or above zero. -/
theorem c20_nonneg (levels : List LevelBox) (ln : ℕ) (L : LevelBox) (hL : levels[ln]? = some L)
    (hb : ∀ K ∈ levels, 0 ≤ K.numBoxes) (hw : ∀ w ∈ L.widths, 0 ≤ w) (c : List ℤ) (hc : ∀ x ∈ c, 0 ≤ x) :
    ∃ n, cellNumber levels ln c = some n ∧ 0 ≤ n := by
  refine ⟨_, by unfold cellNumber; rw [hL, Option.map_some], ?_⟩
  have h1 : 0 ≤ levelOffset levels ln := by
    unfold levelOffset
    apply List.sum_nonneg
    intro x hx
    obtain ⟨K, hK, rfl⟩ := List.mem_map.mp hx
    exact hb K (List.mem_of_mem_take hK)
  have h2 : ∀ (ns : List ℤ) (s : ℤ) (c : List ℤ), (∀ w ∈ ns, 0 ≤ w) → (∀ x ∈ c, 0 ≤ x) → 0 ≤ s →
      0 ≤ ((strides s ns).zipWith (· * ·) c).sum := by
    intro ns
    induction ns with
    | nil => intro s c _ _ _; simp [strides]
    | cons n ns ih =>
      intro s c hns hc hs
      cases c with
      | nil => simp
      | cons a c =>
        simp only [strides, List.zipWith_cons_cons, List.sum_cons]
        have := ih (s * n) c (fun w hw => hns w (List.mem_cons_of_mem _ hw))
          (fun x hx => hc x (List.mem_cons_of_mem _ hx)) (mul_nonneg hs (hns n List.mem_cons_self))
        have := mul_nonneg hs (hc a List.mem_cons_self)
        omega
  have := h2 L.widths 1 c hw hc (by norm_num)
  omega

/-- **C20 (violation)**: the offset between levels is the number of boxes, not the number of cells, so
with two levels the cell `(b, 0, ..., 0)` of level 0 (`b` = number of boxes of level 0) has the same
initial label as the cell at the origin of level 1. -/
theorem c20_violation_levels (L0 L1 : LevelBox) (rest : List LevelBox) (d : ℕ) :
    cellNumber (L0 :: L1 :: rest) 1 (List.replicate (d + 1) 0) =
      (cellNumber (L0 :: L1 :: rest) 0 (L0.numBoxes :: List.replicate d 0)).map fun n =>
        if L0.widths = [] then n + L0.numBoxes else n := by
  have hz : ∀ (ns : List ℤ) (k : ℕ) (s : ℤ), ((strides s ns).zipWith (· * ·) (List.replicate k 0)).sum = 0 := by
    intro ns
    induction ns with
    | nil => intro k s; simp [strides]
    | cons n ns ih =>
      intro k s
      cases k with
      | zero => simp
      | succ k => simp only [List.replicate_succ, strides, List.zipWith_cons_cons, List.sum_cons, ih]; ring
  unfold cellNumber
  simp only [List.getElem?_cons_succ, List.getElem?_cons_zero, Option.map_some, hz, levelOffset,
    List.take_succ_cons, List.take_zero, List.map_cons, List.map_nil, List.sum_cons, List.sum_nil]
  cases hw : L0.widths with
  | nil => simp [strides]
  | cons w ws => simp [strides, hz]

/-- The colliding cells exist: an 8 by 8 level 0 in one box, with level 1 refining its lower corner. -/
example : let L0 : LevelBox := ⟨[0, 0], [8, 8], 1⟩
    let L1 : LevelBox := ⟨[0, 0], [2, 2], 1⟩
    InBox L0.lower L0.widths [1, 0] ∧ InBox L1.lower L1.widths [0, 0] ∧
    cellNumber [L0, L1] 0 [1, 0] = some 1 ∧ cellNumber [L0, L1] 1 [0, 0] = some 1 := by
  refine ⟨?_, ?_, ?_, ?_⟩
  · simp [InBox]
  · simp [InBox]
  · simp [cellNumber, levelOffset, strides]
  · simp [cellNumber, levelOffset, strides]

/-! ## C21 -/

theorem grainNumber_lt {labels : Finset ℤ} {n : ℤ} (h : n ∈ labels) :
    grainNumber labels n < numberOfGrains labels := by
  unfold grainNumber numberOfGrains
  rw [if_pos h]
  exact List.idxOf_lt_length_iff.mpr ((Finset.mem_sort _).mpr h)

/-- **C21**: grain numbers are 0 .. N-1 for N grains, without gaps, and two labels get the same number
exactly if they are equal; the numbering preserves the order of the labels. -/
theorem c21_bijection (labels : Finset ℤ) :
    numberOfGrains labels = labels.card ∧
    (∀ n ∈ labels, grainNumber labels n < numberOfGrains labels) ∧
    (∀ k < numberOfGrains labels, ∃! n, n ∈ labels ∧ grainNumber labels n = k) ∧
    (∀ m ∈ labels, ∀ n ∈ labels, (grainNumber labels m < grainNumber labels n ↔ m < n)) := by
  have hlt : ∀ m ∈ labels, ∀ n ∈ labels, m < n → grainNumber labels m < grainNumber labels n := by
    intro m hm n hn hmn
    unfold grainNumber
    rw [if_pos hm, if_pos hn]
    have h1 := List.idxOf_lt_length_iff.mpr ((Finset.mem_sort (s := labels) (· ≤ ·)).mpr hm)
    have h2 := List.idxOf_lt_length_iff.mpr ((Finset.mem_sort (s := labels) (· ≤ ·)).mpr hn)
    by_contra hc
    push Not at hc
    have hs : (labels.sort (· ≤ ·)).Pairwise (· ≤ ·) := Finset.pairwise_sort labels (· ≤ ·)
    have := hs.rel_get_of_le (a := ⟨_, h2⟩) (b := ⟨_, h1⟩) (by simpa using hc)
    simp only [List.get_eq_getElem, List.getElem_idxOf] at this
    omega
  have hiff : ∀ m ∈ labels, ∀ n ∈ labels, (grainNumber labels m < grainNumber labels n ↔ m < n) := by
    intro m hm n hn
    refine ⟨fun h => ?_, hlt m hm n hn⟩
    by_contra hc
    rcases lt_or_eq_of_le (not_lt.mp hc) with h' | h'
    · exact absurd (hlt n hn m hm h') (by omega)
    · rw [h'] at h; omega
  refine ⟨Finset.length_sort _, fun n hn => grainNumber_lt hn, ?_, hiff⟩
  intro k hk
  unfold numberOfGrains at hk
  refine ⟨(labels.sort (· ≤ ·))[k], ⟨(Finset.mem_sort (· ≤ ·)).mp (List.getElem_mem hk), ?_⟩, ?_⟩
  · unfold grainNumber
    rw [if_pos ((Finset.mem_sort (· ≤ ·)).mp (List.getElem_mem hk))]
    exact (Finset.sort_nodup labels (· ≤ ·)).idxOf_getElem _ hk
  · rintro n ⟨hn, e⟩
    unfold grainNumber at e
    rw [if_pos hn] at e
    subst e
    exact (List.getElem_idxOf _).symm

/-- **C21**: the numbering does not depend on how the cells are distributed over processes, nor on the
order within a process. -/
theorem c21_distribution (ranks ranks' : List (List (ℤ × ℝ))) [DecidablePred fun p : ℤ × ℝ => p.1 ≥ 0 ∧ p.2 > 0]
    (h : ∀ p, p ∈ ranks.flatten ↔ p ∈ ranks'.flatten) : grainList ranks = grainList ranks' := by
  unfold grainList
  ext n
  simp only [List.mem_toFinset, List.mem_map, List.mem_filter, h]

/-- **C21**: cells outside the grains keep their (negative) value, and every labelled cell with positive
weight gets a number below the number of grains; two such cells agree after renumbering exactly if they
agreed before. -/
theorem c21_renumber (ranks : List (List (ℤ × ℝ))) [DecidablePred fun p : ℤ × ℝ => p.1 ≥ 0 ∧ p.2 > 0] :
    (∀ n < 0, renumber (grainList ranks) n = n) ∧
    (∀ p ∈ ranks.flatten, 0 ≤ p.1 → 0 < p.2 →
      0 ≤ renumber (grainList ranks) p.1 ∧ renumber (grainList ranks) p.1 < numberOfGrains (grainList ranks)) ∧
    (∀ p ∈ ranks.flatten, ∀ q ∈ ranks.flatten, 0 ≤ p.1 → 0 < p.2 → 0 ≤ q.1 → 0 < q.2 →
      (renumber (grainList ranks) p.1 = renumber (grainList ranks) q.1 ↔ p.1 = q.1)) := by
  have hmem : ∀ p ∈ ranks.flatten, 0 ≤ p.1 → 0 < p.2 → p.1 ∈ grainList ranks := by
    intro p hp h1 h2
    unfold grainList
    simp only [List.mem_toFinset, List.mem_map, List.mem_filter]
    exact ⟨p, ⟨hp, by simpa using ⟨h1, h2⟩⟩, rfl⟩
  refine ⟨?_, ?_, ?_⟩
  · intro n hn; unfold renumber; rw [if_neg (by omega)]
  · intro p hp h1 h2
    unfold renumber
    rw [if_pos h1]
    exact ⟨by positivity, by exact_mod_cast grainNumber_lt (hmem p hp h1 h2)⟩
  · intro p hp q hq h1 h2 h3 h4
    unfold renumber
    rw [if_pos h1, if_pos h3]
    refine ⟨fun e => ?_, fun e => by rw [e]⟩
    have e' : grainNumber (grainList ranks) p.1 = grainNumber (grainList ranks) q.1 := by exact_mod_cast e
    obtain ⟨-, -, h5, -⟩ := c21_bijection (grainList ranks)
    obtain ⟨x, -, hx⟩ := h5 _ (grainNumber_lt (hmem p hp h1 h2))
    rw [hx p.1 ⟨hmem p hp h1 h2, rfl⟩, hx q.1 ⟨hmem q hq h3 h4, e'.symm⟩]

example : numberOfGrains {3, 40, 17} = 3 := by rw [(c21_bijection _).1]; decide

/-! ## C22 -/

/-- Specification: sum of `f` over the cells of grain `k` (positive weight) on all processes. -/
noncomputable def grainSum (f : CellRec → ℝ) (k : ℤ) (cells : List CellRec) : ℝ :=
  ((cells.filter fun r => r.n = k ∧ 0 < r.w).map f).sum

/-- Specification: grain `k` exists. -/
def Present (k : ℤ) (cells : List CellRec) : Prop := 0 ≤ k ∧ ∃ r ∈ cells, r.n = k ∧ 0 < r.w

theorem accumulate_spec (f : CellRec → ℝ) (cells : List CellRec) (k : ℤ) [Decidable (Present k cells)] :
    accumulate f cells k = if Present k cells then some (grainSum f k cells) else none := by
  classical
  suffices h : ∀ (l : List CellRec) (m : IMap),
      (l.foldl (fun m r => if r.n ≥ 0 ∧ r.w > 0 then addTo m r.n (f r) else m) m) k =
        if Present k l ∨ (m k).isSome then some ((m k).getD 0 + (if 0 ≤ k then grainSum f k l else 0)) else none by
    unfold accumulate
    rw [h cells _]
    simp only [Option.isSome_none, Bool.false_eq_true, or_false, Option.getD_none, zero_add]
    by_cases hp : Present k cells
    · rw [if_pos hp, if_pos hp, if_pos hp.1]
    · rw [if_neg hp, if_neg hp]
  intro l
  induction l with
  | nil => intro m; cases hm : m k <;> simp [Present, grainSum, hm]
  | cons a l ih =>
    intro m
    rw [List.foldl_cons, ih]
    by_cases hc : a.n ≥ 0 ∧ a.w > 0
    · rw [if_pos hc]
      by_cases hk : k = a.n
      · have e1 : addTo m a.n (f a) k = some ((m k).getD 0 + f a) := by simp [addTo, hk]
        have e2 : grainSum f k (a :: l) = f a + grainSum f k l := by
          simp [grainSum, hk, hc.2]
        have e3 : Present k (a :: l) := ⟨by omega, a, List.mem_cons_self, hk.symm, hc.2⟩
        have h0 : 0 ≤ k := by omega
        rw [e1, e2]
        simp only [Option.isSome_some, or_true, if_true, Option.getD_some, e3, true_or, h0, Option.some.injEq]
        ring
      · have e1 : addTo m a.n (f a) k = m k := by simp [addTo, hk]
        have e2 : grainSum f k (a :: l) = grainSum f k l := by
          simp [grainSum, Ne.symm hk]
        have e3 : Present k (a :: l) ↔ Present k l := by
          unfold Present
          constructor
          · rintro ⟨h0, r, hr, h1, h2⟩
            rcases List.mem_cons.mp hr with rfl | hr
            · exact absurd h1.symm hk
            · exact ⟨h0, r, hr, h1, h2⟩
          · rintro ⟨h0, r, hr, h1, h2⟩
            exact ⟨h0, r, List.mem_cons_of_mem _ hr, h1, h2⟩
        rw [e1, e2]
        simp only [e3]
    · rw [if_neg hc]
      have e3 : Present k (a :: l) ↔ Present k l := by
        unfold Present
        constructor
        · rintro ⟨h0, r, hr, h1, h2⟩
          rcases List.mem_cons.mp hr with rfl | hr
          · exact absurd ⟨by omega, h2⟩ hc
          · exact ⟨h0, r, hr, h1, h2⟩
        · rintro ⟨h0, r, hr, h1, h2⟩
          exact ⟨h0, r, List.mem_cons_of_mem _ hr, h1, h2⟩
      have e2 : (if 0 ≤ k then grainSum f k (a :: l) else 0) = if 0 ≤ k then grainSum f k l else 0 := by
        split_ifs with h0
        · have : ¬ (a.n = k ∧ 0 < a.w) := fun ⟨h1, h2⟩ => hc ⟨by omega, h2⟩
          unfold grainSum
          rw [List.filter_cons_of_neg (by simpa using this)]
        · rfl
      rw [e2]
      simp only [e3]

theorem entries_spec (f : CellRec → ℝ) (cells : List CellRec) (k : ℤ) [Decidable (Present k cells)] :
    ((∃ p ∈ entries (keysOf cells) (accumulate f cells), p.1 = k) ↔ Present k cells) ∧
    Tools.Props.keySum (entries (keysOf cells) (accumulate f cells)) k =
      if Present k cells then grainSum f k cells else 0 := by
  classical
  have hspec := fun j => accumulate_spec f cells j
  have hkey : Present k cells → k ∈ keysOf cells := by
    rintro ⟨_, r, hr, rfl, _⟩
    unfold keysOf
    rw [List.mem_toFinset]
    exact List.mem_map.mpr ⟨r, hr, rfl⟩
  have hmem : (∃ p ∈ entries (keysOf cells) (accumulate f cells), p.1 = k) ↔ Present k cells := by
    unfold entries
    constructor
    · rintro ⟨p, hp, rfl⟩
      obtain ⟨j, hj, e⟩ := List.mem_filterMap.mp hp
      rw [hspec j] at e
      split_ifs at e with hpres
      · simp only [Option.map_some, Option.some.injEq] at e
        rw [← e]; exact hpres
      · simp at e
    · intro hpres
      refine ⟨(k, grainSum f k cells), List.mem_filterMap.mpr ⟨k, ?_, ?_⟩, rfl⟩
      · exact (Finset.mem_sort _).mpr (hkey hpres)
      · rw [hspec k, if_pos hpres]; rfl
  refine ⟨hmem, ?_⟩
  unfold Tools.Props.keySum entries
  suffices h : ∀ l : List ℤ, l.Nodup →
      (((l.filterMap fun j => (accumulate f cells j).map fun v => (j, v)).filter fun p => p.1 = k).map Prod.snd).sum =
        if k ∈ l then (if Present k cells then grainSum f k cells else 0) else 0 by
    rw [h _ (Finset.sort_nodup _ _)]
    by_cases hk : k ∈ keysOf cells
    · rw [if_pos ((Finset.mem_sort _).mpr hk)]
    · rw [if_neg (fun h => hk ((Finset.mem_sort _).mp h)), if_neg fun h => hk (hkey h)]
  intro l hl
  induction l with
  | nil => simp
  | cons a l ih =>
    rw [List.nodup_cons] at hl
    have ih := ih hl.2
    rw [List.filterMap_cons]
    by_cases hk : k = a
    · subst hk
      rw [if_neg hl.1] at ih
      rw [if_pos List.mem_cons_self, hspec k]
      by_cases hp : Present k cells
      · simp only [if_pos hp, Option.map_some]
        rw [List.filter_cons_of_pos (by simp), List.map_cons, List.sum_cons, ih, add_zero]
      · simp only [if_neg hp, Option.map_none]
        exact ih
    · have hm : (k ∈ a :: l) ↔ k ∈ l := by simp [hk]
      simp only [hm]
      rw [← ih]
      cases hacc : (accumulate f cells a) with
      | none => simp
      | some v =>
        simp only [Option.map_some]
        rw [List.filter_cons_of_neg (by simpa using Ne.symm hk)]

/-- **C22**: after the gather, the table entry of grain `k` is the sum over all its cells with positive
weight on all processes; entries exist exactly for the grains that occur. -/
theorem c22_table (f : CellRec → ℝ) (ranks : List (List CellRec)) :
    ∃ m, globalMap f ranks = some m ∧ ∀ k,
      (Present k ranks.flatten → m k = some (grainSum f k ranks.flatten)) ∧
      (¬ Present k ranks.flatten → m k = none) := by
  classical
  obtain ⟨m, hm, hk⟩ := Tools.Props.c25_list_local_to_global
    (ranks.map fun cells => entries (keysOf cells) (accumulate f cells)) (fun _ => none)
  refine ⟨m, hm, fun k => ?_⟩
  have hk := hk k
  simp only [Option.isSome_none, Bool.false_eq_true, or_false, Option.getD_none, zero_add, List.mem_map,
    exists_exists_and_eq_and, List.map_map, Function.comp_def] at hk
  have hpres : (∃ a ∈ ranks, ∃ p ∈ entries (keysOf a) (accumulate f a), p.1 = k) ↔ Present k ranks.flatten := by
    simp only [(entries_spec f _ k).1]
    unfold Present
    constructor
    · rintro ⟨a, ha, h0, r, hr, h⟩; exact ⟨h0, r, List.mem_flatten.mpr ⟨a, ha, hr⟩, h⟩
    · rintro ⟨h0, r, hr, h⟩
      obtain ⟨a, ha, hra⟩ := List.mem_flatten.mp hr
      exact ⟨a, ha, h0, r, hra, h⟩
  have hsum : 0 ≤ k → (ranks.map fun a => Tools.Props.keySum (entries (keysOf a) (accumulate f a)) k).sum =
      grainSum f k ranks.flatten := by
    intro h0
    simp only [(entries_spec f _ k).2]
    have hz : ∀ a, (if Present k a then grainSum f k a else 0) = grainSum f k a := by
      intro a
      split_ifs with hp
      · rfl
      · unfold grainSum
        rw [List.filter_eq_nil_iff.mpr]
        · simp
        · intro r hr
          simp only [decide_eq_true_eq]
          exact fun h => hp ⟨h0, r, hr, h⟩
    simp only [hz]
    unfold grainSum
    rw [List.filter_flatten, List.map_flatten, List.sum_flatten]
    simp [Function.comp_def]
  constructor
  · intro hp
    rw [hk, if_pos (hpres.mpr hp), hsum hp.1]
  · intro hp
    rw [hk, if_neg fun h => hp (hpres.mp h)]

/-- **C22**: the volumes of the grains add up to the total weight of the labelled cells, for any set of
grain numbers containing those that occur. -/
theorem c22_total_volume (ranks : List (List CellRec)) (ks : Finset ℤ)
    (hks : ∀ r ∈ ranks.flatten, 0 ≤ r.n → 0 < r.w → r.n ∈ ks) (h0 : ∀ k ∈ ks, 0 ≤ k) :
    ∃ m, globalMap (fun r => r.w) ranks = some m ∧
      ∑ k ∈ ks, (m k).getD 0 = ((ranks.flatten.filter fun r => 0 ≤ r.n ∧ 0 < r.w).map CellRec.w).sum := by
  classical
  obtain ⟨m, hm, hk⟩ := c22_table (fun r => r.w) ranks
  refine ⟨m, hm, ?_⟩
  have h1 : ∀ k ∈ ks, (m k).getD 0 = grainSum (fun r => r.w) k ranks.flatten := by
    intro k hkk
    by_cases hp : Present k ranks.flatten
    · rw [(hk k).1 hp]; rfl
    · rw [(hk k).2 hp]
      unfold grainSum
      rw [List.filter_eq_nil_iff.mpr]
      · simp
      · intro r hr
        simp only [decide_eq_true_eq]
        exact fun h => hp ⟨h0 k hkk, r, hr, h⟩
  rw [Finset.sum_congr rfl h1]
  clear h1 hk hm m
  generalize ranks.flatten = cells at hks ⊢
  induction cells with
  | nil => simp [grainSum]
  | cons a l ih =>
    have ih := ih fun r hr => hks r (List.mem_cons_of_mem _ hr)
    by_cases hc : 0 ≤ a.n ∧ 0 < a.w
    · rw [List.filter_cons_of_pos (by simpa using hc), List.map_cons, List.sum_cons, ← ih]
      have hak := hks a List.mem_cons_self hc.1 hc.2
      have : ∀ k ∈ ks, grainSum (fun r => r.w) k (a :: l) =
          (if k = a.n then a.w else 0) + grainSum (fun r => r.w) k l := by
        intro k _
        unfold grainSum
        by_cases hk : a.n = k
        · rw [List.filter_cons_of_pos (by simp [hk, hc.2]), if_pos hk.symm]; simp
        · rw [List.filter_cons_of_neg (by simp [hk]), if_neg (Ne.symm hk), zero_add]
      rw [Finset.sum_congr rfl this, Finset.sum_add_distrib, Finset.sum_ite_eq' ks a.n, if_pos hak]
    · rw [List.filter_cons_of_neg (by simpa using hc), ← ih]
      apply Finset.sum_congr rfl
      intro k hk
      unfold grainSum
      rw [List.filter_cons_of_neg]
      simp only [decide_eq_true_eq]
      rintro ⟨rfl, h⟩
      exact hc ⟨h0 _ hk, h⟩

theorem grainSum_mono {f g : CellRec → ℝ} {k : ℤ} {cells : List CellRec}
    (h : ∀ r ∈ cells, r.n = k → 0 < r.w → f r ≤ g r) : grainSum f k cells ≤ grainSum g k cells := by
  unfold grainSum
  apply List.sum_le_sum
  intro r hr
  simp only [List.mem_filter, decide_eq_true_eq] at hr
  exact h r hr.1 hr.2.1 hr.2.2

theorem grainSum_pos {k : ℤ} {cells : List CellRec} (h : Present k cells) :
    0 < grainSum (fun r => r.w) k cells := by
  obtain ⟨-, r, hr, h1, h2⟩ := h
  unfold grainSum
  have hm : r ∈ cells.filter fun r => r.n = k ∧ 0 < r.w := by
    simp only [List.mem_filter, decide_eq_true_eq]; exact ⟨hr, h1, h2⟩
  apply lt_of_lt_of_le h2
  apply List.single_le_sum
  · intro x hx
    obtain ⟨q, hq, rfl⟩ := List.mem_map.mp hx
    simp only [List.mem_filter, decide_eq_true_eq] at hq
    exact hq.2.2.le
  · exact List.mem_map.mpr ⟨r, hm, rfl⟩

theorem grainSum_const_mul (c : ℝ) (f : CellRec → ℝ) (k : ℤ) (cells : List CellRec) :
    grainSum (fun r => c * f r) k cells = c * grainSum f k cells := by
  unfold grainSum
  rw [← List.sum_map_mul_left]

theorem grainSum_add (f g : CellRec → ℝ) (k : ℤ) (cells : List CellRec) :
    grainSum (fun r => f r + g r) k cells = grainSum f k cells + grainSum g k cells := by
  unfold grainSum
  exact List.sum_map_add

/-- **C22**: the reported average is the weighted mean of the concentrations of the cells of the grain. -/
theorem c22_average (ranks : List (List CellRec)) (k : ℤ) (h : Present k ranks.flatten) :
    grainAverage ranks k = some (grainSum (fun r => r.c * r.w) k ranks.flatten /
      grainSum (fun r => r.w) k ranks.flatten) := by
  obtain ⟨mc, h1, h2⟩ := c22_table (fun r => r.c * r.w) ranks
  obtain ⟨mw, h3, h4⟩ := c22_table (fun r => r.w) ranks
  unfold grainAverage
  rw [h1, h3]
  simp only [Option.bind_some, (h2 k).1 h, (h4 k).1 h, Option.map_some, Option.getD_some]

/-- **C22**: the average lies between any bounds on the concentrations found in the grain. -/
theorem c22_average_bounds (ranks : List (List CellRec)) (k : ℤ) (h : Present k ranks.flatten) (lo hi : ℝ)
    (hb : ∀ r ∈ ranks.flatten, r.n = k → 0 < r.w → lo ≤ r.c ∧ r.c ≤ hi) :
    ∃ a, grainAverage ranks k = some a ∧ lo ≤ a ∧ a ≤ hi := by
  refine ⟨_, c22_average ranks k h, ?_, ?_⟩
  · rw [le_div_iff₀ (grainSum_pos h), ← grainSum_const_mul]
    exact grainSum_mono fun r hr h1 h2 => mul_le_mul_of_nonneg_right (hb r hr h1 h2).1 h2.le
  · rw [div_le_iff₀ (grainSum_pos h), ← grainSum_const_mul]
    exact grainSum_mono fun r hr h1 h2 => mul_le_mul_of_nonneg_right (hb r hr h1 h2).2 h2.le

/-- **C22**: the reported deviation is the weighted variance: non-negative, and equal to the mean of the
squares minus the square of the mean. -/
theorem c22_deviation (ranks : List (List CellRec)) (k : ℤ) (h : Present k ranks.flatten) :
    ∃ a d, grainAverage ranks k = some a ∧ grainDeviation ranks k = some d ∧ 0 ≤ d ∧
      d = grainSum (fun r => r.c ^ 2 * r.w) k ranks.flatten / grainSum (fun r => r.w) k ranks.flatten - a ^ 2 := by
  have ha := c22_average ranks k h
  set S := fun f => grainSum f k ranks.flatten with hS
  have hW : 0 < S (fun r => r.w) := grainSum_pos h
  set a := S (fun r => r.c * r.w) / S (fun r => r.w) with haa
  obtain ⟨md, h1, h2⟩ := c22_table (fun r => r.w * ((r.c - (grainAverage ranks r.n).getD 0) *
    (r.c - (grainAverage ranks r.n).getD 0))) ranks
  obtain ⟨mw, h3, h4⟩ := c22_table (fun r => r.w) ranks
  have hcong : S (fun r => r.w * ((r.c - (grainAverage ranks r.n).getD 0) *
      (r.c - (grainAverage ranks r.n).getD 0))) = S (fun r => r.w * ((r.c - a) * (r.c - a))) := by
    simp only [hS, grainSum]
    congr 1
    apply List.map_congr_left
    intro r hr
    simp only [List.mem_filter, decide_eq_true_eq] at hr
    have he : grainAverage ranks r.n = some a := by rw [hr.2.1]; exact ha
    rw [he]; rfl
  refine ⟨a, S (fun r => r.w * ((r.c - a) * (r.c - a))) / S (fun r => r.w), ha, ?_, ?_, ?_⟩
  · unfold grainDeviation
    rw [h1, h3]
    simp only [Option.bind_some, (h2 k).1 h, (h4 k).1 h, Option.map_some, Option.getD_some]
    exact congrArg some (by rw [← hcong])
  · apply div_nonneg _ hW.le
    have := grainSum_mono (f := fun _ => 0) (g := fun r => r.w * ((r.c - a) * (r.c - a))) (k := k)
      (cells := ranks.flatten) (fun r _ _ hw => mul_nonneg hw.le (mul_self_nonneg _))
    refine le_trans ?_ this
    have := grainSum_const_mul 0 (fun _ => 0) k ranks.flatten
    simp only [zero_mul] at this
    rw [this]
  · have e : S (fun r => r.w * ((r.c - a) * (r.c - a))) =
        S (fun r => r.c ^ 2 * r.w) + ((-2 * a) * S (fun r => r.c * r.w) + a ^ 2 * S (fun r => r.w)) := by
      simp only [hS]
      rw [← grainSum_const_mul, ← grainSum_const_mul, ← grainSum_add, ← grainSum_add]
      congr 1
      funext r
      ring
    have e2 : S (fun r => r.c * r.w) = a * S (fun r => r.w) := by rw [haa]; field_simp
    change _ = S (fun r => r.c ^ 2 * r.w) / S (fun r => r.w) - a ^ 2
    rw [e, e2]
    field_simp
    ring

/-- The hypotheses are met: two processes, one grain present on both. -/
example : Present 3 ([[⟨3, 1, 1 / 2⟩, ⟨-1, 1, 0⟩], [⟨3, 2, 1 / 4⟩, ⟨5, 1, 1⟩]] : List (List CellRec)).flatten :=
  ⟨by norm_num, ⟨3, 1, 1 / 2⟩, by simp, rfl, by norm_num⟩

/-! ## C23 -/

/-- `u` is a neighbour of `v`. -/
def Nb (dirs : V → List (Option V × Option V)) (v u : V) : Prop :=
  ∃ pr ∈ dirs v, pr.1 = some u ∨ pr.2 = some u

/-- `u` can be reached from `v` in exactly `j` neighbour steps. -/
def Steps (dirs : V → List (Option V × Option V)) : ℕ → V → V → Prop
  | 0, v, u => v = u
  | j + 1, v, u => ∃ w, Nb dirs v w ∧ Steps dirs j w u

theorem findFlagged_some {f : V → Bool} {l : List (Option V × Option V)} {u : V}
    (h : findFlagged f l = some u) : f u = true ∧ ∃ pr ∈ l, pr.1 = some u ∨ pr.2 = some u := by
  induction l with
  | nil => simp [findFlagged] at h
  | cons a l ih =>
    obtain ⟨cp, cm⟩ := a
    simp only [findFlagged] at h
    split_ifs at h with h1 h2
    · subst h
      exact ⟨by simpa using h1, (some u, cm), List.mem_cons_self, Or.inl rfl⟩
    · subst h
      exact ⟨by simpa using h2, (cp, some u), List.mem_cons_self, Or.inr rfl⟩
    · obtain ⟨hf, pr, hpr, he⟩ := ih h
      exact ⟨hf, pr, List.mem_cons_of_mem _ hpr, he⟩

theorem findFlagged_none {f : V → Bool} {l : List (Option V × Option V)} (h : findFlagged f l = none)
    {u : V} {pr : Option V × Option V} (hpr : pr ∈ l) (hu : pr.1 = some u ∨ pr.2 = some u) : f u = false := by
  induction l with
  | nil => simp at hpr
  | cons a l ih =>
    obtain ⟨cp, cm⟩ := a
    simp only [findFlagged] at h
    split_ifs at h with h1 h2
    · subst h; simp at h1
    · subst h; simp at h2
    · rcases List.mem_cons.mp hpr with rfl | hpr
      · rcases hu with hu | hu
        · simp only at hu; subst hu; simpa using h1
        · simp only at hu; subst hu; simpa using h2
      · exact ih h hpr

/-- State after `k` passes. -/
def after {Q : Type} (dirs : V → List (Option V × Option V)) (s : ExtState V Q) : ℕ → ExtState V Q
  | 0 => s
  | k + 1 => extendPass dirs (after dirs s k)

/-- **C23**: after `k` passes exactly the cells within `k` steps of a grain cell are set. -/
theorem c23_pass {Q : Type} (dirs : V → List (Option V × Option V)) (s : ExtState V Q) (k : ℕ) (v : V) :
    (after dirs s k).flag v = true ↔ ∃ j ≤ k, ∃ u, Steps dirs j v u ∧ s.flag u = true := by
  induction k generalizing v with
  | zero =>
    simp only [after, Nat.le_zero]
    constructor
    · intro h; exact ⟨0, rfl, v, rfl, h⟩
    · rintro ⟨j, rfl, u, hu, hf⟩; simp only [Steps] at hu; rw [hu]; exact hf
  | succ k ih =>
    simp only [after, extendPass, Bool.or_eq_true, Option.isSome_iff_exists]
    constructor
    · rintro (h | ⟨u, hu⟩)
      · obtain ⟨j, hj, u, h1, h2⟩ := (ih v).mp h
        exact ⟨j, by omega, u, h1, h2⟩
      · obtain ⟨hf, hn⟩ := findFlagged_some hu
        obtain ⟨j, hj, w, h1, h2⟩ := (ih u).mp hf
        exact ⟨j + 1, by omega, w, ⟨u, hn, h1⟩, h2⟩
    · rintro ⟨j, hj, u, h1, h2⟩
      cases j with
      | zero =>
        left
        exact (ih v).mpr ⟨0, by omega, u, h1, h2⟩
      | succ j =>
        obtain ⟨w, ⟨pr, hpr, hw⟩, h3⟩ := h1
        right
        have hfw := (ih w).mpr ⟨j, by omega, u, h3, h2⟩
        cases hff : findFlagged (after dirs s k).flag (dirs v) with
        | some x => exact ⟨x, rfl⟩
        | none => rw [findFlagged_none hff hpr hw] at hfw; exact Bool.noConfusion hfw

/-- **C23**: a set cell carries the orientation of a nearest grain cell; grain cells keep their own. -/
theorem c23_nearest {Q : Type} (dirs : V → List (Option V × Option V)) (s : ExtState V Q) (k : ℕ) (v : V)
    (h : (after dirs s k).flag v = true) :
    ∃ j ≤ k, ∃ u, Steps dirs j v u ∧ s.flag u = true ∧ (after dirs s k).quat v = s.quat u ∧
      ∀ i < j, ∀ w, Steps dirs i v w → s.flag w = false := by
  induction k generalizing v with
  | zero =>
    exact ⟨0, le_rfl, v, rfl, h, rfl, fun i hi => absurd hi (by omega)⟩
  | succ k ih =>
    by_cases hv : (after dirs s k).flag v = true
    · obtain ⟨j, hj, u, h1, h2, h3, h4⟩ := ih v hv
      refine ⟨j, by omega, u, h1, h2, ?_, h4⟩
      simp only [after, extendPass]
      rw [if_pos hv]; exact h3
    · have hsome : ∃ u, findFlagged (after dirs s k).flag (dirs v) = some u := by
        simp only [after, extendPass, Bool.or_eq_true, Option.isSome_iff_exists] at h
        exact h.resolve_left hv
      obtain ⟨u, hu⟩ := hsome
      obtain ⟨hf, hn⟩ := findFlagged_some hu
      obtain ⟨j, hj, w, h1, h2, h3, h4⟩ := ih u hf
      refine ⟨j + 1, by omega, w, ⟨u, hn, h1⟩, h2, ?_, ?_⟩
      · simp only [after, extendPass]
        rw [if_neg hv, hu]; exact h3
      · intro i hi x hx
        by_contra hc
        exact hv ((c23_pass dirs s k v).mpr ⟨i, by omega, x, hx, by simpa using hc⟩)

theorem extendLoop_after {Q : Type} (dirs : V → List (Option V × Option V)) (ranks : List (List (List V)))
    (s : ExtState V Q) : ∀ fuel nn k, ∃ j, (extendLoop dirs ranks fuel nn (after dirs s k)).1 = after dirs s j ∧
      (((extendLoop dirs ranks fuel nn (after dirs s k)).2 = nn + fuel ∧ j = k + fuel) ∨
       ((extendLoop dirs ranks fuel nn (after dirs s k)).2 < nn + fuel ∧
        j = k + 1 + ((extendLoop dirs ranks fuel nn (after dirs s k)).2 - nn) ∧
        nn ≤ (extendLoop dirs ranks fuel nn (after dirs s k)).2 ∧
        ranks.any (oneStillUnset dirs (after dirs s (j - 1)).flag) = false)) := by
  intro fuel
  induction fuel with
  | zero => intro nn k; exact ⟨k, rfl, Or.inl ⟨rfl, rfl⟩⟩
  | succ fuel ih =>
    intro nn k
    simp only [extendLoop]
    split_ifs with h
    · obtain ⟨j, h1, h2⟩ := ih (nn + 1) (k + 1)
      simp only [after] at h1 h2
      refine ⟨j, h1, ?_⟩
      rcases h2 with ⟨e1, e2⟩ | ⟨e1, e2, e3, e4⟩
      · left; exact ⟨by omega, by omega⟩
      · right; exact ⟨by omega, by omega, by omega, e4⟩
    · refine ⟨k + 1, rfl, Or.inr ⟨by omega, by omega, le_rfl, ?_⟩⟩
      simpa using h

/-- **C23** (at most one patch per process; see the violations for the general case): if the extension
reports convergence, every cell has an orientation. -/
theorem c23_stop_partial {Q : Type} (dirs : V → List (Option V × Option V)) (ranks : List (List (List V)))
    (hone : ∀ r ∈ ranks, r.length ≤ 1) (hall : ∀ v, ∃ r ∈ ranks, ∃ p ∈ r, v ∈ p)
    (s : ExtState V Q) (cap : ℕ) (h : (extendLoop dirs ranks cap 0 s).2 < cap) (v : V) :
    (extendLoop dirs ranks cap 0 s).1.flag v = true := by
  obtain ⟨j, h1, h2⟩ := extendLoop_after dirs ranks s cap 0 0
  simp only [after] at h1 h2
  rcases h2 with ⟨e, -⟩ | ⟨-, e2, -, e4⟩
  · omega
  · rw [h1]
    obtain ⟨r, hr, p, hp, hv⟩ := hall v
    have hr1 : r = [p] := by
      have hl := hone r hr
      match r, hl, hp with
      | [q], _, hp => simp only [List.mem_singleton] at hp; rw [hp]
    rw [List.any_eq_false] at e4
    have e5 := e4 r hr
    rw [hr1] at e5
    simp only [oneStillUnset, List.foldl_cons, List.foldl_nil, Bool.not_eq_true] at e5
    have hany : ∀ (l : List V) (b : Bool), l.foldl (fun o v => o || stillUnset dirs (after dirs s (j - 1)).flag v) b =
        (b || l.any (stillUnset dirs (after dirs s (j - 1)).flag)) := by
      intro l
      induction l with
      | nil => intro b; simp
      | cons a l ih => intro b; rw [List.foldl_cons, ih, List.any_cons, Bool.or_assoc]
    rw [hany, Bool.false_or, List.any_eq_false] at e5
    have e6 := e5 v hv
    obtain ⟨i, rfl⟩ : ∃ i, j = i + 1 := ⟨j - 1, by omega⟩
    simp only [Nat.add_sub_cancel] at e6
    simp only [after, extendPass]
    simp only [stillUnset, Bool.and_eq_true, Bool.not_eq_true', not_and, Option.isNone_iff_eq_none] at e6
    cases hf : (after dirs s i).flag v with
    | true => rfl
    | false =>
      have := e6 hf
      rw [Bool.false_or, ← Option.ne_none_iff_isSome]
      exact this

/-- **C23 (violation)**: only the last patch of a process decides; the earlier ones are forgotten. -/
theorem c23_violation_last_patch (dirs : V → List (Option V × Option V)) (f : V → Bool) (ps : List (List V))
    (p : List V) : oneStillUnset dirs f (ps ++ [p]) = p.any (stillUnset dirs f) := by
  unfold oneStillUnset
  rw [List.foldl_append]
  simp only [List.foldl_cons, List.foldl_nil]
  have hany : ∀ (l : List V) (b : Bool), l.foldl (fun o v => o || stillUnset dirs f v) b =
      (b || l.any (stillUnset dirs f)) := by
    intro l
    induction l with
    | nil => intro b; simp
    | cons a l ih => intro b; rw [List.foldl_cons, ih, List.any_cons, Bool.or_assoc]
  rw [hany, Bool.false_or]

/-- Cells 0..n-1 in a row. -/
def lineDirs (n : ℕ) (v : Fin n) : List (Option (Fin n) × Option (Fin n)) :=
  [(if h : v.1 + 1 < n then some ⟨v.1 + 1, h⟩ else none,
    if 0 < v.1 then some ⟨v.1 - 1, lt_of_le_of_lt (Nat.sub_le _ _) v.2⟩ else none)]

/-- **C23 (violation)**: six cells in a row in two patches of one process, the grain in the second
patch: the extension reports convergence after the first pass with two cells left unset. -/
theorem c23_violation_two_patches :
    let s : ExtState (Fin 6) ℕ := ⟨fun v => v.1 ≥ 3, fun v => v.1⟩
    let r := extendLoop (lineDirs 6) [[[0, 1, 2], [3, 4, 5]]] 6 0 s
    r.2 < 6 ∧ r.1.flag 2 = true ∧ r.1.flag 1 = false ∧ r.1.flag 0 = false := by
  decide +kernel

/-- **C23 (violation)**: a process without patches keeps the loop running to the limit, so that it
reports failure to converge whatever the data. -/
theorem c23_violation_empty_rank {Q : Type} (dirs : V → List (Option V × Option V)) (ranks : List (List (List V)))
    (h : [] ∈ ranks) (s : ExtState V Q) (cap : ℕ) : (extendLoop dirs ranks cap 0 s).2 = cap := by
  suffices hh : ∀ cap nn (s : ExtState V Q), (extendLoop dirs ranks cap nn s).2 = nn + cap by
    simpa using hh cap 0 s
  intro cap
  induction cap with
  | zero => intro nn s; rfl
  | succ cap ih =>
    intro nn s
    simp only [extendLoop]
    rw [if_pos (List.any_eq_true.mpr ⟨[], h, rfl⟩), ih]
    omega

/-- Directions on an `nx` by `n / nx` patch with physical boundaries. -/
def gridDirs (nx n : ℕ) (v : Fin n) : List (Option (Fin n) × Option (Fin n)) :=
  [(if h : v.1 % nx + 1 < nx ∧ v.1 + 1 < n then some ⟨v.1 + 1, h.2⟩ else none,
    if 0 < v.1 % nx then some ⟨v.1 - 1, lt_of_le_of_lt (Nat.sub_le _ _) v.2⟩ else none),
   (if h : v.1 + nx < n then some ⟨v.1 + nx, h⟩ else none,
    if nx ≤ v.1 then some ⟨v.1 - nx, lt_of_le_of_lt (Nat.sub_le _ _) v.2⟩ else none)]

/-- **C23 (violation)**: the limit is the largest width of the domain, but a grain in a corner is
`nx + ny - 2` steps away from the opposite corner: on a 4 by 4 domain in one patch the extension stops
at the limit with the far corner unset. -/
theorem c23_violation_limit :
    let s : ExtState (Fin 16) ℕ := ⟨fun v => v = 0, fun v => v.1⟩
    let r := extendLoop (gridDirs 4 16) [[List.finRange 16]] 4 0 s
    r.2 = 4 ∧ r.1.flag 15 = false := by
  decide +kernel

/-- The hypotheses of `c23_stop_partial` are met by one patch per process. -/
example : let s : ExtState (Fin 6) ℕ := ⟨fun v => v.1 ≥ 3, fun v => v.1⟩
    let r := extendLoop (lineDirs 6) [[[0, 1, 2]], [[3, 4, 5]]] 6 0 s
    r.2 < 6 ∧ r.1.flag 0 = true ∧ r.1.quat 0 = 3 := by
  decide +kernel

end AMPE.Grains.Props
