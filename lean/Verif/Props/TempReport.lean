import Verif.Model.TempReport
import Mathlib.Data.Fintype.Prod
import Mathlib.Data.Fintype.BigOperators
import Mathlib.Tactic.Linarith
import Mathlib.Tactic.FieldSimp
import Mathlib.Tactic.NormNum
import Mathlib.Tactic.Ring
import Mathlib.Tactic.FinCases
import Mathlib.Data.Fin.VecNotation
import Mathlib.Algebra.BigOperators.Fin

/-!
# C135: the temperature shown is the temperature used
-/

namespace AMPE.TempReport.Props

open AMPE.TempReport

variable {ι X : Type}

/-! ## Specification -/

/-- The three printed numbers are the smallest, largest and mean value of a field. -/
def Reports [Fintype ι] [Nonempty ι] (p : Printed) (w u : ι → ℝ) : Prop :=
  p.lo = cellMin u ∧ p.hi = cellMax u ∧ p.mean = cellMean w u

/-- Time of the last evaluation of the rates, 0 if there was none. -/
noncomputable def lastTime : List (Event ι X) → ℝ := fun es => es.foldl (fun s e => match e with | .rates t _ _ => t | _ => s) 0

/-- Models whose temperature is prescribed with a profile that the run is asked to follow. -/
noncomputable def profile : Kind ι X → Option (ℝ → ι → ℝ)
  | .uniform T rate => if rate = 0 then none else some fun t _ => T t
  | .gaussian prof rate => if rate = 0 then none else some prof
  | .gradient prof => some prof
  | _ => none

/-- Everything but the steady heat equation. -/
def Plain : Kind ι X → Prop
  | .steady _ => False
  | _ => True

/-! ## What is in memory -/

theorem run_append (k : Kind ι X) (m : Mem ι) (a b : List (Event ι X)) : run k m (a ++ b) = run k (run k m a) b := List.foldl_append ..

theorem lastTime_append (a : List (Event ι X)) (e : Event ι X) :
    lastTime (a ++ [e]) = match e with | .rates t _ _ => t | _ => lastTime a := by
  simp [lastTime, List.foldl_append]

/-- **C135**, prescribed fields that change (uniform, Gaussian, frozen gradient): both copies always are the profile at the time of the last
evaluation of the rates. -/
theorem c135_prescribed (k : Kind ι X) (prof : ℝ → ι → ℝ) (hk : profile k = some prof) (x : X) (m : Mem ι) (es : List (Event ι X)) :
    run k (start k x m) es = ⟨prof (lastTime es), prof (lastTime es)⟩ := by
  induction es using List.reverseRecOn with
  | nil =>
    cases k <;> simp [profile] at hk
    · obtain ⟨h, rfl⟩ := hk; simp [run, start, setTemperature, copyToScratch, lastTime]
    · obtain ⟨h, rfl⟩ := hk; simp [run, start, setTemperature, copyToScratch, lastTime]
    · subst hk; simp [run, start, setTemperature, copyToScratch, lastTime]
  | append_singleton es e ih =>
    rw [run_append, ih, lastTime_append]
    cases k <;> simp [profile] at hk
    · obtain ⟨h, rfl⟩ := hk; cases e <;> simp [run, step, fillScratch, setTemperature, copyToScratch, h]
    · obtain ⟨h, rfl⟩ := hk; cases e <;> simp [run, step, fillScratch, setTemperature, copyToScratch, h]
    · subst hk; cases e <;> simp [run, step, fillScratch, setTemperature, copyToScratch]

/-- **C135**, prescribed fields without cooling rate: both copies keep the field of time 0. -/
theorem c135_prescribed_fixed (prof : ℝ → ι → ℝ) (x : X) (m : Mem ι) (es : List (Event ι X)) :
    run (.gaussian prof 0) (start (.gaussian prof 0) x m) es = ⟨prof 0, prof 0⟩ := by
  induction es using List.reverseRecOn with
  | nil => simp [run, start, setTemperature, copyToScratch]
  | append_singleton es e ih =>
    rw [run_append, ih]
    cases e with
    | rates t x y =>
      by_cases h : t = 0
      · subst h; simp [run, step, fillScratch, setTemperature]
      · simp [run, step, fillScratch, setTemperature, h]
    | accept y => simp [run, step]
    | energy => simp [run, step, copyToScratch]

theorem c135_uniform_fixed (T : ℝ → ℝ) (x : X) (m : Mem ι) (es : List (Event ι X)) :
    run (.uniform T 0) (start (.uniform T 0) x m) es = ⟨fun _ => T 0, fun _ => T 0⟩ := by
  induction es using List.reverseRecOn with
  | nil => simp [run, start, setTemperature, copyToScratch]
  | append_singleton es e ih =>
    rw [run_append, ih]
    cases e with
    | rates t x y =>
      by_cases h : t = 0
      · subst h; simp [run, step, fillScratch, setTemperature]
      · simp [run, step, fillScratch, setTemperature, h]
    | accept y => simp [run, step]
    | energy => simp [run, step, copyToScratch]

/-- A temperature read from the initial-conditions file and left alone stays what it was in both copies. -/
theorem c135_file (x : X) (m : Mem ι) (es : List (Event ι X)) :
    run (.file : Kind ι X) (start (.file : Kind ι X) x m) es = ⟨m.cur, m.cur⟩ := by
  induction es using List.reverseRecOn with
  | nil => simp [run, start, copyToScratch]
  | append_singleton es e ih =>
    rw [run_append, ih]
    cases e <;> simp [run, step, fillScratch, setTemperature, copyToScratch]

/-- **C135**: with every temperature model but the steady heat equation the temperature shown after an accepted step is the one the rates were
last computed with, however many diagnostics were made in between and whatever happened before. -/
theorem c135_shown_is_used_partial (k : Kind ι X) (hk : Plain k) (x₀ : X) (m : Mem ι) (es : List (Event ι X)) (t : ℝ) (x : X) (y : ι → ℝ)
    (n : ℕ) :
    shown (run k (start k x₀ m) (es ++ [.rates t x y, .accept y] ++ List.replicate n .energy)) =
      used k (run k (start k x₀ m) es) t x y := by
  have hn : ∀ (n : ℕ) (m : Mem ι), shown (run k m (List.replicate n .energy)) = shown m := by
    intro n
    induction n with
    | zero => intro m; rfl
    | succ n ih => intro m; simp only [List.replicate_succ, run, List.foldl_cons] at ih ⊢; rw [ih]; rfl
  rw [run_append, hn, run_append]
  match k, hk with
  | .uniform T rate, _ =>
    by_cases hr : rate = 0
    · subst hr
      rw [c135_uniform_fixed]
      by_cases h : t = 0
      · subst h; simp [run, step, fillScratch, setTemperature, shown, used]
      · simp [run, step, fillScratch, setTemperature, shown, used, h]
    · simp [run, step, fillScratch, setTemperature, shown, used, hr]
  | .gaussian prof rate, _ =>
    by_cases hr : rate = 0
    · subst hr
      rw [c135_prescribed_fixed]
      by_cases h : t = 0
      · subst h; simp [run, step, fillScratch, setTemperature, shown, used]
      · simp [run, step, fillScratch, setTemperature, shown, used, h]
    · simp [run, step, fillScratch, setTemperature, shown, used, hr]
  | .gradient prof, _ => simp [run, step, fillScratch, setTemperature, shown, used]
  | .unsteady, _ => simp [run, step, fillScratch, setTemperature, shown, used]
  | .file, _ => rw [c135_file]; simp [run, step, fillScratch, setTemperature, shown, used]

/-- **C135**, unsteady heat equation: whatever the solver tries between two accepted steps, what is shown is the accepted temperature. -/
theorem c135_unsteady_trials (m : Mem ι) (es trials : List (Event ι X)) (y : ι → ℝ) (h : ∀ e ∈ trials, ∀ z, e ≠ .accept z) :
    shown (run .unsteady m (es ++ [.accept y] ++ trials)) = y := by
  rw [run_append, run_append]
  have hn : ∀ (tr : List (Event ι X)) (m : Mem ι), (∀ e ∈ tr, ∀ z, e ≠ .accept z) → shown (run .unsteady m tr) = shown m := by
    intro tr
    induction tr with
    | nil => intro m _; rfl
    | cons e tr ih =>
      intro m hm
      have h1 := ih (step .unsteady m e) fun e he => hm e (List.mem_cons_of_mem _ he)
      simp only [run, List.foldl_cons] at h1 ⊢
      rw [h1]
      cases e with
      | rates t x z => rfl
      | accept z => exact absurd rfl (hm _ List.mem_cons_self z)
      | energy => rfl
  rw [hn _ _ h]
  rfl

/-! ## What is printed -/

variable [Fintype ι] [Nonempty ι]

theorem min_const (c : ℝ) : cellMin (fun _ : ι => c) = c := by simp [cellMin]

theorem max_const (c : ℝ) : cellMax (fun _ : ι => c) = c := by simp [cellMax]

theorem mean_const {w : ι → ℝ} (hw : ∑ i, w i ≠ 0) (c : ℝ) : cellMean w (fun _ => c) = c := by
  rw [cellMean, ← Finset.mul_sum, mul_div_assoc, div_self hw, mul_one]

/-- **C135**: the printed numbers of a uniform temperature are those of the prescribed temperature at the printed time, whatever is in memory. -/
theorem c135_printed_uniform (T : ℝ → ℝ) (rate : ℝ) {w : ι → ℝ} (hw : ∑ i, w i ≠ 0) (t : ℝ) (m : Mem ι) :
    Reports (printed (.uniform T rate : Kind ι X) w t m) w fun _ => T t :=
  ⟨(min_const _).symm, (max_const _).symm, (mean_const hw _).symm⟩

/-- **C135**: for the Gaussian, unsteady and file temperatures the printed numbers are those of the field shown. -/
theorem c135_printed (k : Kind ι X) (hk : Plain k) (hu : ∀ T r, k ≠ .uniform T r) (hg : ∀ p, k ≠ .gradient p) (w : ι → ℝ) (t : ℝ) (m : Mem ι) :
    Reports (printed k w t m) w (shown m) := by
  match k, hk with
  | .uniform T r, _ => exact absurd rfl (hu T r)
  | .gradient p, _ => exact absurd rfl (hg p)
  | .gaussian _ _, _ => exact ⟨rfl, rfl, rfl⟩
  | .unsteady, _ => exact ⟨rfl, rfl, rfl⟩
  | .file, _ => exact ⟨rfl, rfl, rfl⟩

/-- Where a symmetry of the mesh turns the field upside down, half the sum of the extremes is the mean. -/
theorem mean_of_symmetry (r : ι ≃ ι) (w u : ι → ℝ) (hw : ∑ i, w i ≠ 0) (hr : ∀ i, w (r i) = w i) {S : ℝ} (hu : ∀ i, u i + u (r i) = S) :
    0.5 * (cellMax u + cellMin u) = cellMean w u := by
  have h1 : cellMax u + cellMin u = S := by
    refine le_antisymm ?_ ?_
    · obtain ⟨i, _, hi⟩ := Finset.exists_mem_eq_sup' (Finset.univ_nonempty (α := ι)) u
      have h2 : cellMin u ≤ u (r i) := Finset.inf'_le _ (Finset.mem_univ _)
      have h3 : cellMax u = u i := hi
      linarith [hu i]
    · obtain ⟨i, _, hi⟩ := Finset.exists_mem_eq_inf' (Finset.univ_nonempty (α := ι)) u
      have h2 : u (r i) ≤ cellMax u := Finset.le_sup' u (Finset.mem_univ _)
      have h3 : cellMin u = u i := hi
      linarith [hu i]
  have h2 : ∑ i, u i * w i = ∑ i, u (r i) * w i := by
    rw [← Equiv.sum_comp r fun i => u i * w i]
    exact Finset.sum_congr rfl fun i _ => by rw [hr]
  have h3 : 2 * ∑ i, u i * w i = S * ∑ i, w i := by
    rw [two_mul]
    nth_rewrite 2 [h2]
    rw [← Finset.sum_add_distrib, Finset.mul_sum]
    exact Finset.sum_congr rfl fun i _ => by rw [← add_mul, hu]
  rw [h1, cellMean, eq_div_iff hw]
  linarith

/-- **C135**, frozen gradient on one level: the average printed is the mean, in 3D (2D: one cell along `z`). -/
theorem c135_printed_gradient {nx ny nz : ℕ} [NeZero nx] [NeZero ny] [NeZero nz] (a gx gy gz v : ℝ) (hv : v ≠ 0) (prof : ℝ → Fin nx × Fin ny × Fin nz → ℝ)
    (t : ℝ) (m : Mem (Fin nx × Fin ny × Fin nz)) (hm : ∀ i, m.cur i = a + gx * (i.1 : ℕ) + gy * (i.2.1 : ℕ) + gz * (i.2.2 : ℕ)) :
    Reports (printed (.gradient prof : Kind _ X) (fun _ => v) t m) (fun _ => v) (shown m) := by
  refine ⟨rfl, rfl, ?_⟩
  refine mean_of_symmetry ((Fin.revPerm).prodCongr (Fin.revPerm.prodCongr Fin.revPerm)) (fun _ => v) m.cur ?_ (fun _ => rfl)
    (S := 2 * a + gx * ((nx : ℝ) - 1) + gy * ((ny : ℝ) - 1) + gz * ((nz : ℝ) - 1)) fun i => ?_
  · simp only [Finset.sum_const, Finset.card_univ, nsmul_eq_mul, Fintype.card_prod, Fintype.card_fin, Nat.cast_mul]
    have h1 : (nx : ℝ) ≠ 0 := Nat.cast_ne_zero.2 (NeZero.ne nx)
    have h2 : (ny : ℝ) ≠ 0 := Nat.cast_ne_zero.2 (NeZero.ne ny)
    have h3 : (nz : ℝ) ≠ 0 := Nat.cast_ne_zero.2 (NeZero.ne nz)
    positivity
  · have rev : ∀ {n : ℕ} (j : Fin n), (((Fin.rev j : Fin n) : ℕ) : ℝ) = (n : ℝ) - 1 - ((j : ℕ) : ℝ) := fun {n} j => by
      rw [Fin.val_rev, Nat.cast_sub j.isLt, Nat.cast_succ]; ring
    rw [hm, hm]
    simp only [Equiv.prodCongr_apply, Prod.map, Fin.revPerm_apply, rev]
    ring

/-! ## Where it fails -/

/-- Violation: on a refined mesh the average printed for a frozen gradient is not the mean.  One coarse cell of length 1 and two fine
cells of length 1/2 in a row, gradient `g`: half the sum of the extremes is off by `g / 8`. -/
theorem c135_violation_gradient_mean (g a : ℝ) (hg : g ≠ 0) (prof : ℝ → Fin 3 → ℝ) (t : ℝ) (scr : Fin 3 → ℝ) :
    ¬ Reports (printed (.gradient prof : Kind (Fin 3) X) ![1, 1 / 2, 1 / 2] t ⟨fun i => a + g * (![1 / 2, 5 / 4, 7 / 4] : Fin 3 → ℝ) i, scr⟩)
      ![1, 1 / 2, 1 / 2] fun i => a + g * (![1 / 2, 5 / 4, 7 / 4] : Fin 3 → ℝ) i := by
  rintro ⟨-, -, h⟩
  have h1 : cellMean ![1, 1 / 2, 1 / 2] (fun i => a + g * (![1 / 2, 5 / 4, 7 / 4] : Fin 3 → ℝ) i) = a + g := by
    simp [cellMean, Fin.sum_univ_three]
    norm_num
    ring
  have ex : ∀ f : Fin 3 → ℝ, cellMax f = max (f 0) (max (f 1) (f 2)) ∧ cellMin f = min (f 0) (min (f 1) (f 2)) := fun f => by
    refine ⟨le_antisymm (Finset.sup'_le _ _ fun i _ => ?_) (max_le (Finset.le_sup' f (Finset.mem_univ 0))
      (max_le (Finset.le_sup' f (Finset.mem_univ 1)) (Finset.le_sup' f (Finset.mem_univ 2)))),
      le_antisymm (le_min (Finset.inf'_le f (Finset.mem_univ 0)) (le_min (Finset.inf'_le f (Finset.mem_univ 1))
      (Finset.inf'_le f (Finset.mem_univ 2)))) (Finset.le_inf' _ _ fun i _ => ?_)⟩ <;> fin_cases i <;> simp
  have h2 : (printed (.gradient prof : Kind (Fin 3) X) ![1, 1 / 2, 1 / 2] t ⟨fun i => a + g * (![1 / 2, 5 / 4, 7 / 4] : Fin 3 → ℝ) i, scr⟩).mean
      = a + g * (9 / 8) := by
    simp only [printed, copyToScratch]
    rw [(ex _).1, (ex _).2]
    simp only [Matrix.cons_val_zero, Matrix.cons_val_one, Matrix.cons_val]
    rcases le_total 0 g with h0 | h0
    · rw [max_eq_right (by linarith : a + g * (5 / 4) ≤ a + g * (7 / 4)), max_eq_right (by linarith), min_eq_left (by linarith : a + g * (5 / 4) ≤ a + g * (7 / 4)), min_eq_left (by linarith)]
      ring
    · rw [max_eq_left (by linarith : a + g * (7 / 4) ≤ a + g * (5 / 4)), max_eq_left (by linarith), min_eq_right (by linarith : a + g * (7 / 4) ≤ a + g * (5 / 4)), min_eq_right (by linarith)]
      ring
  rw [h1, h2] at h
  exact hg (by linarith)

/-- Violation: with the steady heat equation the current copy is never written.  Whatever the run does, the temperature shown and the numbers printed
are those of the start of the run. -/
theorem c135_violation_steady (sol : ℝ → X → (ι → ℝ) → ι → ℝ) (x₀ : X) (m : Mem ι) (es : List (Event ι X)) (w : ι → ℝ) (t : ℝ) :
    shown (run (.steady sol) (start (.steady sol) x₀ m) es) = m.cur ∧
      Reports (printed (.steady sol) w t (run (.steady sol) (start (.steady sol) x₀ m) es)) w m.cur := by
  have h : (run (.steady sol) (start (.steady sol) x₀ m) es).cur = m.cur := by
    induction es using List.reverseRecOn with
    | nil => simp [run, start, copyToScratch]
    | append_singleton es e ih =>
      rw [run_append]
      cases e <;> simpa [run, step, fillScratch, setTemperature, copyToScratch] using ih
  refine ⟨h, ?_, ?_, ?_⟩ <;> simp [printed, copyToScratch, h]

/-- The rates are computed with the solution of the steady equation, with the heat capacity of the temperature of the start. -/
theorem c135_steady_used (sol : ℝ → X → (ι → ℝ) → ι → ℝ) (x₀ : X) (m : Mem ι) (es : List (Event ι X)) (t : ℝ) (x : X) (y : ι → ℝ) :
    used (.steady sol) (run (.steady sol) (start (.steady sol) x₀ m) es) t x y = sol t x m.cur := by
  have h := (c135_violation_steady sol x₀ m es (fun _ => 1) t).1
  simp only [shown] at h
  simp [used, step, fillScratch, setTemperature, h]

/-- Violation, in numbers: where the steady temperature is everywhere at least `d` above that of the start, the maximum printed is at least `d` below
the maximum of the temperature used. -/
theorem c135_violation_steady_printed (sol : ℝ → X → (ι → ℝ) → ι → ℝ) (x₀ : X) (m : Mem ι) (es : List (Event ι X)) (t : ℝ) (x : X)
    (y w : ι → ℝ) (d : ℝ) (hd : ∀ i, m.cur i + d ≤ sol t x m.cur i) :
    (printed (.steady sol) w t (run (.steady sol) (start (.steady sol) x₀ m) (es ++ [.rates t x y]))).hi + d ≤
      cellMax (used (.steady sol) (run (.steady sol) (start (.steady sol) x₀ m) es) t x y) := by
  rw [c135_steady_used, (c135_violation_steady sol x₀ m _ w t).2.2.1]
  obtain ⟨i, _, hi⟩ := Finset.exists_mem_eq_sup' (Finset.univ_nonempty (α := ι)) m.cur
  have h : cellMax m.cur = m.cur i := hi
  rw [h]
  exact (hd i).trans (Finset.le_sup' (sol t x m.cur) (Finset.mem_univ i))

/-! ## Examples -/

/-- A ramp, a rejected evaluation at a later time and a diagnostic: the field shown is that of the last evaluation. -/
example : shown (run (.uniform (fun t => 1000 - t) (-1) : Kind (Fin 2) Unit) (start (.uniform (fun t => 1000 - t) (-1)) () ⟨0, 0⟩)
    [.rates 5 () 0, .rates 3 () 0, .accept 0, .energy]) 0 = 997 := by
  rw [c135_prescribed _ (fun t _ => 1000 - t) (by simp [profile])]
  norm_num [shown, lastTime]

/-- Steady heating by 50 degrees: the printed maximum stays at 300, the rates use 350. -/
example : (printed (.steady (fun _ _ u i => u i + 50) : Kind (Fin 2) Unit) (fun _ => 1) 1
      (run (.steady (fun _ _ u i => u i + 50)) (start (.steady (fun _ _ u i => u i + 50)) () ⟨fun _ => 300, fun _ => 0⟩) [.rates 1 () 0])).hi = 300 ∧
    used (.steady (fun _ _ u i => u i + 50) : Kind (Fin 2) Unit)
      (start (.steady (fun _ _ u i => u i + 50)) () ⟨fun _ => 300, fun _ => 0⟩) 1 () 0 = fun _ => 350 := by
  constructor
  · rw [(c135_violation_steady _ _ _ _ _ _).2.2.1]; exact max_const _
  · have := c135_steady_used (fun (_ : ℝ) (_ : Unit) (u : Fin 2 → ℝ) i => u i + 50) () ⟨fun _ => 300, fun _ => 0⟩ [] 1 () 0
    exact Eq.trans this (by funext i; norm_num)

end AMPE.TempReport.Props
