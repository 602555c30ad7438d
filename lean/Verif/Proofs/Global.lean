import Verif.Proofs.Existence
import Mathlib.Analysis.Calculus.Deriv.MeanValue

/-!
# Solutions for all times

A system with locally Lipschitz rates and a quantity that never grows along solutions and keeps the state bounded has exactly one solution
from every start for all times.
-/

namespace AMPE.Existence

open Set Filter Topology

variable {ι : Type} [Fintype ι]

/-- A solution from time 0 on. -/
def Solves (F : (ι → ℝ) → ι → ℝ) (T : ℝ) (y : ℝ → ι → ℝ) : Prop := ∀ t ∈ Icc 0 T, ∀ i, HasDerivAt (fun s => y s i) (F (y t) i) t

/-- Up to any time. -/
theorem exists_upto (F : (ι → ℝ) → ι → ℝ) (hF : LocallyLipschitz F) (V : (ι → ℝ) → ℝ)
    (hV : ∀ (y : ℝ → ι → ℝ) t, (∀ i, HasDerivAt (fun s => y s i) (F (y t) i) t) → ∃ d ≤ 0, HasDerivAt (fun s => V (y s)) d t)
    (x0 : ι → ℝ) (B : ℝ) (hB : ∀ x, V x ≤ V x0 → ∀ i, |x i| ≤ B) (T : ℝ) (hT : 0 ≤ T) : ∃ y, y 0 = x0 ∧ Solves F T y := by
  rcases isEmpty_or_nonempty ι with he | hne
  · exact ⟨fun _ => x0, rfl, fun t _ i => (he.false i).elim⟩
  have hB0 : 0 ≤ B := (abs_nonneg _).trans (hB x0 le_rfl (Classical.arbitrary ι))
  obtain ⟨y, y0, hy⟩ := exists_clip F hF (lo := fun _ => -(B + 1)) (hi := fun _ => B + 1) (fun _ => by linarith) T hT x0
  have cont : ∀ i, ContinuousOn (fun s => y s i) (Icc 0 T) := fun i t ht => (hy t ht i).continuousAt.continuousWithinAt
  -- a solution as long as the box is not left
  have real : ∀ t1 ∈ Icc 0 T, (∀ t ∈ Icc 0 t1, ∀ i, |y t i| ≤ B + 1) → Solves F t1 y ∧ ∀ i, |y t1 i| ≤ B := by
    intro t1 ht1 hin
    have s : Solves F t1 y := by
      intro t ht i
      have := hy t ⟨ht.1, ht.2.trans ht1.2⟩ i
      rwa [clip_eq ⟨fun i => (abs_le.1 (hin t ht i)).1, fun i => (abs_le.1 (hin t ht i)).2⟩] at this
    refine ⟨s, hB _ ?_⟩
    choose! d hd0 hd using fun t (ht : t ∈ Icc 0 t1) => hV y t (s t ht)
    have anti : AntitoneOn (fun s => V (y s)) (Icc 0 t1) := by
      refine antitoneOn_of_deriv_nonpos (convex_Icc 0 t1) (fun x hx => (hd x hx).continuousAt.continuousWithinAt)
        (fun x hx => ?_) (fun x hx => ?_) <;> have hx := interior_subset hx
      · exact (hd x hx).differentiableAt.differentiableWithinAt
      · rw [(hd x hx).deriv]; exact hd0 x hx
    rw [← y0]
    exact anti ⟨le_rfl, ht1.1⟩ ⟨ht1.1, le_rfl⟩ ht1.1
  by_cases hout : ∃ t ∈ Icc 0 T, B + 1 ≤ Finset.univ.sup' Finset.univ_nonempty fun i => |y t i|
  · exfalso
    set g : ℝ → ℝ := fun t => Finset.univ.sup' Finset.univ_nonempty fun i => |y t i| with hg
    have cg : ContinuousOn g (Icc 0 T) := ContinuousOn.finset_sup'_apply _ fun i _ => (cont i).abs
    have hc : IsCompact (Icc 0 T ∩ g ⁻¹' Ici (B + 1)) :=
      isCompact_Icc.of_isClosed_subset (cg.preimage_isClosed_of_isClosed isClosed_Icc isClosed_Ici) inter_subset_left
    obtain ⟨t', ht', h'⟩ := hout
    obtain ⟨t1, ⟨ht1, h1⟩, hfirst⟩ := hc.exists_isLeast ⟨t', ht', h'⟩
    have before : ∀ t ∈ Icc 0 t1, t ≠ t1 → g t < B + 1 := by
      intro t ht hne
      by_contra hcon
      exact hne (le_antisymm ht.2 (hfirst ⟨⟨ht.1, ht.2.trans ht1.2⟩, not_lt.1 hcon⟩))
    have le1 : ∀ t ∈ Icc 0 t1, g t ≤ B + 1 := by
      intro t ht
      by_cases e : t = t1
      · subst e
        by_cases e0 : t = 0
        · subst e0
          refine Finset.sup'_le _ _ fun i _ => ?_
          rw [y0]
          linarith [hB x0 le_rfl i]
        · have tpos : 0 < t := lt_of_le_of_ne ht1.1 (Ne.symm e0)
          have ct : ContinuousWithinAt g (Ico 0 t) t := (cg t ht1).mono fun s hs => ⟨hs.1, hs.2.le.trans ht1.2⟩
          have mem : t ∈ closure (Ico 0 t) := by rw [closure_Ico tpos.ne]; exact ⟨tpos.le, le_rfl⟩
          refine ContinuousWithinAt.closure_le mem ct continuousWithinAt_const fun s hs => ?_
          exact (before s ⟨hs.1, hs.2.le⟩ hs.2.ne).le
      · exact (before t ht e).le
    have := (real t1 ht1 fun t ht i => (Finset.le_sup' (fun i => |y t i|) (Finset.mem_univ i)).trans (le1 t ht)).2
    have h2 : g t1 ≤ B := Finset.sup'_le _ _ fun i _ => this i
    have h3 : B + 1 ≤ g t1 := h1
    linarith
  · push Not at hout
    exact ⟨y, y0, (real T ⟨hT, le_rfl⟩ fun t ht i => (Finset.le_sup' (fun i => |y t i|) (Finset.mem_univ i)).trans (hout t ht).le).1⟩

/-- For all times. -/
theorem exists_forever (F : (ι → ℝ) → ι → ℝ) (hF : LocallyLipschitz F) (V : (ι → ℝ) → ℝ)
    (hV : ∀ (y : ℝ → ι → ℝ) t, (∀ i, HasDerivAt (fun s => y s i) (F (y t) i) t) → ∃ d ≤ 0, HasDerivAt (fun s => V (y s)) d t)
    (x0 : ι → ℝ) (B : ℝ) (hB : ∀ x, V x ≤ V x0 → ∀ i, |x i| ≤ B) :
    ∃ y : ℝ → ι → ℝ, y 0 = x0 ∧ ∀ t, 0 ≤ t → ∀ i, HasDerivAt (fun s => y s i) (F (y t) i) t := by
  choose Y Y0 hY using fun n : ℕ => exists_upto F hF V hV x0 B hB n n.cast_nonneg
  have same : ∀ (k l : ℕ) (t : ℝ), 0 ≤ t → t ≤ k → t ≤ l → Y k t = Y l t := by
    intro k l t h0 hk hl
    exact unique_of F hF t (Y k) (Y l) (fun s hs i => hY k s ⟨hs.1, hs.2.trans hk⟩ i) (fun s hs i => hY l s ⟨hs.1, hs.2.trans hl⟩ i)
      (by rw [Y0, Y0]) t ⟨h0, le_rfl⟩
  set y : ℝ → ι → ℝ := fun t => if t < 0 then fun i => x0 i + t * F x0 i else Y (⌈t⌉₊ + 1) t with hy
  have val : ∀ (k : ℕ) (t : ℝ), 0 ≤ t → t ≤ k → y t = Y k t := by
    intro k t h0 hk
    simp only [hy, if_neg (not_lt.2 h0)]
    exact same _ _ t h0 (by push_cast; linarith [Nat.le_ceil t]) hk
  have y0 : y 0 = x0 := by rw [val 0 0 le_rfl (by simp), Y0]
  refine ⟨y, y0, fun t ht i => ?_⟩
  rcases ht.eq_or_lt with rfl | tpos
  · have right : HasDerivWithinAt (fun s => y s i) (F (y 0) i) (Ici 0) 0 := by
      have h1 : HasDerivWithinAt (fun s => Y 1 s i) (F (y 0) i) (Ici 0) 0 := by
        rw [val 1 0 le_rfl (by simp)]
        exact (hY 1 0 ⟨le_rfl, by simp⟩ i).hasDerivWithinAt
      refine h1.congr_of_eventuallyEq ?_ (by rw [val 1 0 le_rfl (by simp)])
      filter_upwards [self_mem_nhdsWithin, nhdsWithin_le_nhds (Iio_mem_nhds (zero_lt_one (α := ℝ)))] with s hs hs1
      rw [val 1 s hs (by push_cast; exact le_of_lt hs1)]
    have left : HasDerivWithinAt (fun s => y s i) (F (y 0) i) (Iic 0) 0 := by
      have h1 : HasDerivWithinAt (fun s : ℝ => x0 i + s * F x0 i) (F (y 0) i) (Iic 0) 0 := by
        rw [y0]
        exact ((((hasDerivAt_id' (0 : ℝ)).mul_const (F x0 i)).const_add (x0 i)).congr_deriv (by ring)).hasDerivWithinAt
      refine h1.congr (fun s hs => ?_) (by rw [y0]; ring)
      rcases (show s ≤ 0 from hs).eq_or_lt with rfl | hneg
      · rw [y0]; ring
      · simp only [hy, if_pos hneg]
    have := left.union right
    rwa [Iic_union_Ici, hasDerivWithinAt_univ] at this
  · set k := ⌈t⌉₊ + 1
    have tk : t + 1 ≤ k := by simp only [k]; push_cast; linarith [Nat.le_ceil t]
    have h1 := hY k t ⟨ht, by linarith⟩ i
    rw [← val k t ht (by linarith)] at h1
    refine h1.congr_of_eventuallyEq ?_
    filter_upwards [Ioo_mem_nhds (show (0 : ℝ) < t from tpos) (show t < t + 1 by linarith)] with s hs
    rw [val k s hs.1.le (by linarith [hs.2])]

end AMPE.Existence
