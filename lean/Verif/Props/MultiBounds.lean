import Verif.Model.MultiBounds
import Verif.Props.ThreeBounds

/-!
# C133: order parameters of grains stay between 0 and 1, and an absent grain does not appear
-/

namespace AMPE.MultiBounds.Props

open AMPE.Flux AMPE.PhaseRHS AMPE.PhaseBounds AMPE.PhaseBounds.Props AMPE.Invariance AMPE.MultiBounds Set

/-! ## Specification -/

/-- The equations of all order parameters hold in all cells from time 0 to `T`; mobility, energies and frame may change in any way. -/
def SolvesMulti2 (n : ℕ) (st : Stencil) (fr : ℝ → Frame) (eps gamma m dx dy : ℝ) (mob : ℝ → Field2) (f : ℝ → ℤ → ℤ → GrainForce)
    (cells : Finset (ℤ × ℤ)) (T : ℝ) (phi : ℝ → Fin (n + 1) → Field2) : Prop :=
  ∀ t ∈ Icc 0 T, ∀ c ∈ cells, ∀ p, HasDerivAt (fun s => phi s p c.1 c.2)
    (rateMulti2 n st (fr t) eps gamma m dx dy (mob t) (f t) (phi t) p c.1 c.2) t

def SolvesMulti3 (n : ℕ) (fr : ℝ → Frame) (eps gamma m dx dy dz : ℝ) (mob : ℝ → Field3) (f : ℝ → ℤ → ℤ → ℤ → GrainForce)
    (cells : Finset (ℤ × ℤ × ℤ)) (T : ℝ) (phi : ℝ → Fin (n + 1) → Field3) : Prop :=
  ∀ t ∈ Icc 0 T, ∀ c ∈ cells, ∀ p, HasDerivAt (fun s => phi s p c.1 c.2.1 c.2.2)
    (rateMulti3 n (fr t) eps gamma m dx dy dz (mob t) (f t) (phi t) p c.1 c.2.1 c.2.2) t

def SolvesSinter2 (n : ℕ) (st : Stencil) (fr : ℝ → Frame) (eps beta b dx dy : ℝ) (mob conc : ℝ → Field2)
    (cells : Finset (ℤ × ℤ)) (T : ℝ) (phi : ℝ → Fin n → Field2) : Prop :=
  ∀ t ∈ Icc 0 T, ∀ c ∈ cells, ∀ p, HasDerivAt (fun s => phi s p c.1 c.2)
    (rateSinter2 n st (fr t) eps beta b dx dy (mob t) (conc t) (phi t) p c.1 c.2) t

def SolvesSinter3 (n : ℕ) (fr : ℝ → Frame) (eps beta b dx dy dz : ℝ) (mob conc : ℝ → Field3)
    (cells : Finset (ℤ × ℤ × ℤ)) (T : ℝ) (phi : ℝ → Fin n → Field3) : Prop :=
  ∀ t ∈ Icc 0 T, ∀ c ∈ cells, ∀ p, HasDerivAt (fun s => phi s p c.1 c.2.1 c.2.2)
    (rateSinter3 n (fr t) eps beta b dx dy dz (mob t) (conc t) (phi t) p c.1 c.2.1 c.2.2) t

/-- The energies of the phases present in the run differ by at most `D`. -/
def Gap (n : ℕ) (f : GrainForce) (D : ℝ) : Prop :=
  match f with
  | .none => True
  | .two fl fa => |fl - fa| ≤ D
  | .three nA dfl dfa dfb => |dfl - dfa| ≤ D ∧ (nA < n → |dfl - dfb| ≤ D ∧ |dfa - dfb| ≤ D)

/-- Sum of the squares of the order parameters, asserted to be positive wherever the code divides by it. -/
def squares {n : ℕ} (phi : Fin n → ℝ) : ℝ := ∑ k, phi k * phi k

/-! ## One cell -/

theorem squares_nonneg {n : ℕ} (phi : Fin n → ℝ) : 0 ≤ squares phi := Finset.sum_nonneg fun _ _ => mul_self_nonneg _

theorem one_le_squares {n : ℕ} (phi : Fin n → ℝ) (p : Fin n) : phi p * phi p ≤ squares phi :=
  Finset.single_le_sum (f := fun k => phi k * phi k) (fun _ _ => mul_self_nonneg _) (Finset.mem_univ p)

theorem exchange_bound {x y d e D : ℝ} (hx : 0 ≤ x) (hy : 0 ≤ y) (hd : |d| ≤ D) (he : y = 0 ∨ |e| ≤ D) : |x * d + y * e| ≤ (x + y) * D := by
  refine (abs_add_le _ _).trans ?_
  rw [abs_mul, abs_mul, abs_of_nonneg hx, abs_of_nonneg hy, add_mul]
  refine add_le_add (mul_le_mul_of_nonneg_left hd hx) ?_
  rcases he with rfl | he
  · simp
  · exact mul_le_mul_of_nonneg_left he hy

/-- The force has the order parameter as a factor, and is carried by the other phases. -/
theorem drive_factor (n : ℕ) (f : GrainForce) (D : ℝ) (hD : 0 ≤ D) (hg : Gap n f D) (phi : Fin (n + 1) → ℝ) (p : Fin (n + 1))
    (hS : 0 < squares phi) :
    ∃ e, drive n f phi p = phi p * e ∧ |e| ≤ 2 * D * (squares phi - phi p * phi p) / (squares phi * squares phi) := by
  have hrest : 0 ≤ squares phi - phi p * phi p := sub_nonneg.2 (one_le_squares phi p)
  have fin : ∀ w x : ℝ, |w| ≤ x * D → x ≤ squares phi - phi p * phi p →
      |2 * (w * (1 / squares phi)) * (1 / squares phi)| ≤ 2 * D * (squares phi - phi p * phi p) / (squares phi * squares phi) := by
    intro w x h1 h2
    rw [show 2 * (w * (1 / squares phi)) * (1 / squares phi) = 2 * w / (squares phi * squares phi) by field_simp, abs_div,
      abs_of_pos (mul_pos hS hS), abs_mul, abs_two]
    refine div_le_div_of_nonneg_right ?_ (mul_pos hS hS).le
    nlinarith [mul_le_mul_of_nonneg_right h2 hD]
  cases f with
  | none => exact ⟨0, by simp [drive], by rw [abs_zero]; positivity⟩
  | two fl fa =>
    have hsum : squares phi = (∑ k : Fin n, phi k.castSucc * phi k.castSucc) + phi (Fin.last n) * phi (Fin.last n) := by
      simp only [squares]; rw [Fin.sum_univ_castSucc]
    have hs : 0 ≤ ∑ k : Fin n, phi k.castSucc * phi k.castSucc := Finset.sum_nonneg fun _ _ => mul_self_nonneg _
    have hl : 0 ≤ phi (Fin.last n) * phi (Fin.last n) := mul_self_nonneg _
    simp only [Gap] at hg
    by_cases hp : p = Fin.last n
    · refine ⟨2 * (((∑ k : Fin n, phi k.castSucc * phi k.castSucc) * (fa - fl)) * (1 / squares phi)) * (1 / squares phi), ?_, ?_⟩
      · simp only [drive, multiDriving, if_pos hp, ← hsum]
        rw [hp]; ring
      · refine fin _ (∑ k : Fin n, phi k.castSucc * phi k.castSucc) ?_ (by rw [hp]; linarith)
        rw [abs_mul, abs_of_nonneg hs, abs_sub_comm]
        exact mul_le_mul_of_nonneg_left hg hs
    · refine ⟨2 * ((phi (Fin.last n) * phi (Fin.last n) * (fl - fa)) * (1 / squares phi)) * (1 / squares phi), ?_, ?_⟩
      · simp only [drive, multiDriving, if_neg hp, ← hsum]
        ring
      · refine fin _ (phi (Fin.last n) * phi (Fin.last n)) ?_ ?_
        · rw [abs_mul, abs_of_nonneg hl]
          exact mul_le_mul_of_nonneg_left hg hl
        · obtain ⟨q, rfl⟩ := Fin.exists_castSucc_eq.2 hp
          have := Finset.single_le_sum (f := fun k : Fin n => phi k.castSucc * phi k.castSucc) (fun _ _ => mul_self_nonneg _) (Finset.mem_univ q)
          linarith
  | three nA dfl dfa dfb =>
    simp only [Gap] at hg
    set a := ∑ k : Fin n, (if k.val < nA then phi k.castSucc * phi k.castSucc else 0) with ha
    set b := ∑ k : Fin n, (if k.val < nA then 0 else phi k.castSucc * phi k.castSucc) with hb
    have hsum : squares phi = phi (Fin.last n) * phi (Fin.last n) + a + b := by
      simp only [squares]
      rw [Fin.sum_univ_castSucc, add_assoc, ha, hb, ← Finset.sum_add_distrib, add_comm]
      congr 1
      refine Finset.sum_congr rfl fun k _ => ?_
      split_ifs <;> ring
    have ha0 : 0 ≤ a := Finset.sum_nonneg fun k _ => by split_ifs <;> [exact mul_self_nonneg _; exact le_rfl]
    have hb0 : 0 ≤ b := Finset.sum_nonneg fun k _ => by split_ifs <;> [exact le_rfl; exact mul_self_nonneg _]
    have hbn : b = 0 ∨ nA < n := by
      rcases Nat.lt_or_ge nA n with h | h
      · exact Or.inr h
      · exact Or.inl (Finset.sum_eq_zero fun k _ => if_pos (lt_of_lt_of_le k.2 h))
    have hl : 0 ≤ phi (Fin.last n) * phi (Fin.last n) := mul_self_nonneg _
    set l := phi (Fin.last n) * phi (Fin.last n) with hldef
    have hne : l + a + b ≠ 0 := by rw [← hsum]; exact hS.ne'
    by_cases hp : p = Fin.last n
    · refine ⟨2 * ((a * (dfa - dfl) + b * (dfb - dfl)) * (1 / squares phi)) * (1 / squares phi), ?_, ?_⟩
      · simp only [drive, ternaryDriving, if_pos hp, ← ha, ← hb, ← hldef]
        rw [hsum]; field_simp; ring
      · refine fin _ (a + b) (exchange_bound ha0 hb0 (by rw [abs_sub_comm]; exact hg.1) ?_) ?_
        · exact hbn.imp_right fun h => by rw [abs_sub_comm]; exact (hg.2 h).1
        · rw [hsum, hp]; linarith
    · obtain ⟨q, rfl⟩ := Fin.exists_castSucc_eq.2 hp
      by_cases hq : q.val < nA
      · refine ⟨2 * ((l * (dfl - dfa) + b * (dfb - dfa)) * (1 / squares phi)) * (1 / squares phi), ?_, ?_⟩
        · simp only [drive, ternaryDriving, if_neg hp, Fin.val_castSucc, if_pos hq, ← ha, ← hb, ← hldef]
          rw [hsum]; field_simp; ring
        · refine fin _ (l + b) (exchange_bound hl hb0 hg.1 (hbn.imp_right fun h => by rw [abs_sub_comm]; exact (hg.2 h).2)) ?_
          have := Finset.single_le_sum (f := fun k : Fin n => if k.val < nA then phi k.castSucc * phi k.castSucc else 0)
            (fun k _ => by split_ifs <;> [exact mul_self_nonneg _; exact le_rfl]) (Finset.mem_univ q)
          simp only [if_pos hq] at this
          rw [hsum]; linarith
      · have hn : nA < n := lt_of_le_of_lt (not_lt.1 hq) q.2
        refine ⟨2 * ((l * (dfl - dfb) + a * (dfa - dfb)) * (1 / squares phi)) * (1 / squares phi), ?_, ?_⟩
        · simp only [drive, ternaryDriving, if_neg hp, Fin.val_castSucc, if_neg hq, ← ha, ← hb, ← hldef]
          rw [hsum]; field_simp; ring
        · refine fin _ (l + a) (exchange_bound hl ha0 (hg.2 hn).1 (Or.inr (hg.2 hn).2)) ?_
          have := Finset.single_le_sum (f := fun k : Fin n => if k.val < nA then 0 else phi k.castSucc * phi k.castSucc)
            (fun k _ => by split_ifs <;> [exact le_rfl; exact mul_self_nonneg _]) (Finset.mem_univ q)
          simp only [if_neg hq] at this
          rw [hsum]; linarith

/-- The rate in a cell: the interface, and a term with the order parameter as a factor. -/
theorem cell_factor (n : ℕ) (gamma m mob D R s M : ℝ) (f : GrainForce) (diff phi : Fin (n + 1) → ℝ) (p : Fin (n + 1)) (hD : 0 ≤ D)
    (hg : Gap n f D) (hs : 0 < s) (hS : s ≤ squares phi) (hR : ∀ k, |phi k| ≤ R) (hM : |mob| ≤ M) :
    ∃ g, cellRateM n gamma m mob f diff phi p = mob * diff p + phi p * g ∧
      |g| ≤ M * (|m| * (R * R + 1 + 2 * |gamma| * ((n + 1) * (R * R) + R)) + 2 * D / s) := by
  obtain ⟨e, he, hb⟩ := drive_factor n f D hD hg phi p (hs.trans_le hS)
  have hS0 := hs.trans_le hS
  have hR0 : 0 ≤ R := (abs_nonneg _).trans (hR p)
  have hM0 : 0 ≤ M := (abs_nonneg _).trans hM
  refine ⟨mob * (-m * (phi p * phi p - 1 + 2 * gamma * (squares phi - phi p)) + e), ?_, ?_⟩
  · simp only [cellRateM, he, multiWell, ← show squares phi = ∑ k, phi k * phi k from rfl]
    ring
  · have h2 : |e| ≤ 2 * D / s := by
      refine hb.trans ?_
      rw [div_le_div_iff₀ (mul_pos hS0 hS0) hs]
      have h3 : (squares phi - phi p * phi p) * s ≤ squares phi * squares phi := by
        refine mul_le_mul ?_ hS hs.le hS0.le
        linarith [mul_self_nonneg (phi p)]
      nlinarith [mul_le_mul_of_nonneg_left h3 hD]
    have hpp : |phi p * phi p| ≤ R * R := by rw [abs_mul]; exact mul_le_mul (hR p) (hR p) (abs_nonneg _) hR0
    have hsq : |squares phi| ≤ (n + 1) * (R * R) := by
      rw [abs_of_pos hS0]
      refine (Finset.sum_le_sum (g := fun _ => R * R) fun k _ => ?_).trans (by simp)
      rw [← abs_mul_abs_self]
      exact mul_le_mul (hR k) (hR k) (abs_nonneg _) hR0
    have h4 : |phi p * phi p - 1 + 2 * gamma * (squares phi - phi p)| ≤ R * R + 1 + 2 * |gamma| * ((n + 1) * (R * R) + R) := by
      refine (abs_add_le _ _).trans (add_le_add ((abs_sub _ _).trans (by rw [abs_one]; linarith)) ?_)
      rw [abs_mul, abs_mul, abs_two]
      exact mul_le_mul_of_nonneg_left ((abs_sub _ _).trans (add_le_add hsq (hR p))) (by positivity)
    rw [abs_mul]
    refine mul_le_mul hM ?_ (abs_nonneg _) hM0
    refine (abs_add_le _ _).trans (add_le_add ?_ h2)
    rw [abs_mul, abs_neg]
    exact mul_le_mul_of_nonneg_left h4 (abs_nonneg _)

/-- Above one the wells win against forces up to `gamma m`. -/
theorem cell_above (n : ℕ) (gamma m mob : ℝ) (f : GrainForce) (diff phi : Fin (n + 1) → ℝ) (p : Fin (n + 1)) (hm : 0 ≤ m) (hgam : 0 ≤ gamma)
    (hmob : 0 ≤ mob) (hg : Gap n f (gamma * m)) (hp : 1 < phi p) : cellRateM n gamma m mob f diff phi p ≤ mob * diff p := by
  have h1 := one_le_squares phi p
  have hpp : 1 < phi p * phi p := by nlinarith
  have hS : 1 < squares phi := hpp.trans_le h1
  obtain ⟨e, he, hb⟩ := drive_factor n f (gamma * m) (mul_nonneg hgam hm) hg phi p (by linarith)
  have hx : 0 ≤ squares phi - phi p * phi p := by linarith
  have h2 : e ≤ 2 * (gamma * m) * (squares phi - phi p * phi p) := by
    refine (le_abs_self e).trans (hb.trans ?_)
    refine div_le_self (by have := mul_nonneg hgam hm; positivity) ?_
    nlinarith
  have hgm := mul_nonneg hgam hm
  have h3 : e ≤ m * (phi p * phi p - 1 + 2 * gamma * (squares phi - phi p)) := by
    have a1 : 0 ≤ m * (phi p * phi p - 1) := mul_nonneg hm (by linarith)
    have a2 : 0 ≤ gamma * m * (phi p * phi p - phi p) := mul_nonneg hgm (by nlinarith)
    nlinarith
  have h4 : cellRateM n gamma m mob f diff phi p
      = mob * diff p + mob * phi p * (e - m * (phi p * phi p - 1 + 2 * gamma * (squares phi - phi p))) := by
    simp only [cellRateM, he, multiWell, ← show squares phi = ∑ k, phi k * phi k from rfl]
    ring
  rw [h4]
  have := mul_nonneg (mul_nonneg hmob (by linarith : (0 : ℝ) ≤ phi p)) (sub_nonneg.2 h3)
  linarith

/-- Sintering. -/
theorem sinter_factor (n : ℕ) (beta b conc mob R C M : ℝ) (diff phi : Fin n → ℝ) (p : Fin n) (hR : ∀ k, |phi k| ≤ R) (hC : |conc| ≤ C)
    (hM : |mob| ≤ M) :
    ∃ g, wangRate n beta b conc diff phi p * mob = mob * beta * diff p + phi p * g ∧ |g| ≤ M * (12 * |b| * (1 + C + (2 + C) * R + n * (R * R))) := by
  have hR0 : 0 ≤ R := (abs_nonneg _).trans (hR p)
  have hM0 : 0 ≤ M := (abs_nonneg _).trans hM
  have hC0 : 0 ≤ C := (abs_nonneg _).trans hC
  refine ⟨mob * (-(12 * b) * (1 - conc - (2 - conc) * phi p + squares phi)), ?_, ?_⟩
  · simp only [wangRate, squares]; ring
  · have hsq : |squares phi| ≤ n * (R * R) := by
      rw [abs_of_nonneg (squares_nonneg phi)]
      refine (Finset.sum_le_sum (g := fun _ => R * R) fun k _ => ?_).trans (by simp)
      rw [← abs_mul_abs_self]
      exact mul_le_mul (hR k) (hR k) (abs_nonneg _) hR0
    have h1 : |1 - conc| ≤ 1 + C := (abs_sub _ _).trans (by rw [abs_one]; linarith)
    have h2 : |2 - conc| ≤ 2 + C := (abs_sub _ _).trans (by rw [abs_two]; linarith)
    rw [abs_mul]
    refine mul_le_mul hM ?_ (abs_nonneg _) hM0
    rw [abs_mul, abs_neg, abs_mul, abs_of_pos (by norm_num : (0 : ℝ) < 12)]
    refine mul_le_mul_of_nonneg_left ?_ (by positivity)
    refine (abs_add_le _ _).trans (add_le_add ((abs_sub _ _).trans (add_le_add h1 ?_)) hsq)
    rw [abs_mul]
    exact mul_le_mul h2 (hR p) (abs_nonneg _) (by linarith)

theorem sinter_above (n : ℕ) (beta b conc mob C M : ℝ) (diff phi : Fin n → ℝ) (p : Fin n) (hb : 0 ≤ b) (hmob : 0 ≤ mob) (hM : mob ≤ M)
    (hC : |conc| ≤ C) (hp : 1 < phi p) (hp2 : phi p < 2) :
    wangRate n beta b conc diff phi p * mob ≤ mob * beta * diff p + 24 * b * M * C * (phi p - 1) := by
  have h1 := one_le_squares phi p
  have hc := neg_abs_le conc
  have hC0 : 0 ≤ C := (abs_nonneg _).trans hC
  have h2 : -(C * (phi p - 1)) ≤ 1 - conc - (2 - conc) * phi p + squares phi := by
    have : -(C * (phi p - 1)) ≤ (phi p - 1) * (phi p - 1 + conc) := by nlinarith [mul_self_nonneg (phi p - 1)]
    nlinarith
  have h3 : wangRate n beta b conc diff phi p * mob
      = mob * beta * diff p - mob * (12 * b) * phi p * (1 - conc - (2 - conc) * phi p + squares phi) := by
    simp only [wangRate, squares]; ring
  rw [h3]
  have h5 : 0 ≤ mob * (12 * b) * phi p := mul_nonneg (mul_nonneg hmob (by linarith)) (by linarith)
  have h4 := mul_le_mul_of_nonneg_left h2 h5
  have h6 : mob * (12 * b) * phi p * (C * (phi p - 1)) ≤ 24 * b * M * C * (phi p - 1) := by
    have hx : 0 ≤ C * (phi p - 1) := mul_nonneg hC0 (by linarith)
    have hy : mob * (12 * b) * phi p ≤ M * (12 * b) * 2 :=
      mul_le_mul (mul_le_mul_of_nonneg_right hM (by linarith)) hp2.le (by linarith) (mul_nonneg (hmob.trans hM) (by linarith))
    have := mul_le_mul_of_nonneg_right hy hx
    linarith
  linarith

/-! ## Along a run -/

/-- Nonnegative and absent order parameters: any rate with the order parameter as a factor beside diffusion. -/
theorem nonneg_of_factor {ι : Type} (cells : Finset ι) (T K : ℝ) (phi X G : ℝ → ι → ℝ)
    (hsol : ∀ t ∈ Icc 0 T, ∀ c ∈ cells, HasDerivAt (fun s => phi s c) (X t c + phi t c * G t c) t) (hK : ∀ t ∈ Icc 0 T, ∀ c ∈ cells, |G t c| ≤ K)
    (hpull : ∀ t ∈ Icc 0 T, ∀ c ∈ cells, phi t c < 0 → (∀ q ∈ cells, phi t c ≤ phi t q) → 0 ≤ X t c) (h0 : ∀ c ∈ cells, 0 ≤ phi 0 c) :
    ∀ t ∈ Icc 0 T, ∀ c ∈ cells, 0 ≤ phi t c :=
  stays_nonneg cells phi (fun t c => X t c + phi t c * G t c) T K 1 one_pos hsol h0 fun t ht c hc hmin _ h2 => by
    have := hpull t ht c hc h2 hmin
    nlinarith [(abs_le.1 (hK t ht c hc)).2]

theorem absent_of_factor {ι : Type} (cells : Finset ι) (T K : ℝ) (phi X G : ℝ → ι → ℝ)
    (hsol : ∀ t ∈ Icc 0 T, ∀ c ∈ cells, HasDerivAt (fun s => phi s c) (X t c + phi t c * G t c) t) (hK : ∀ t ∈ Icc 0 T, ∀ c ∈ cells, |G t c| ≤ K)
    (hpull : ∀ t ∈ Icc 0 T, ∀ c ∈ cells, phi t c < 0 → (∀ q ∈ cells, phi t c ≤ phi t q) → 0 ≤ X t c)
    (hpull' : ∀ t ∈ Icc 0 T, ∀ c ∈ cells, 0 < phi t c → (∀ q ∈ cells, phi t q ≤ phi t c) → X t c ≤ 0) (h0 : ∀ c ∈ cells, phi 0 c = 0) :
    ∀ t ∈ Icc 0 T, ∀ c ∈ cells, phi t c = 0 := by
  have h1 := nonneg_of_factor cells T K phi X G hsol hK hpull fun c hc => (h0 c hc).ge
  have h2 := nonneg_of_factor cells T K (fun t c => -phi t c) (fun t c => -X t c) G
    (fun t ht c hc => (hsol t ht c hc).neg.congr_deriv (by ring)) hK
    (fun t ht c hc hn hmin => by
      have := hpull' t ht c hc (by linarith) fun q hq => by have := hmin q hq; linarith
      linarith)
    fun c hc => by rw [h0 c hc, neg_zero]
  exact fun t ht c hc => le_antisymm (by have := h2 t ht c hc; linarith) (h1 t ht c hc)

theorem le_one_of_above {ι : Type} (cells : Finset ι) (T K : ℝ) (phi X r : ℝ → ι → ℝ)
    (hsol : ∀ t ∈ Icc 0 T, ∀ c ∈ cells, HasDerivAt (fun s => phi s c) (r t c) t)
    (hr : ∀ t ∈ Icc 0 T, ∀ c ∈ cells, 1 < phi t c → phi t c < 2 → r t c ≤ X t c + K * (phi t c - 1))
    (hpull : ∀ t ∈ Icc 0 T, ∀ c ∈ cells, 1 < phi t c → (∀ q ∈ cells, phi t q ≤ phi t c) → X t c ≤ 0) (h0 : ∀ c ∈ cells, phi 0 c ≤ 1) :
    ∀ t ∈ Icc 0 T, ∀ c ∈ cells, phi t c ≤ 1 := by
  have h := stays_nonneg cells (fun t c => 1 - phi t c) (fun t c => -r t c) T K 1 one_pos
    (fun t ht c hc => (hsol t ht c hc).const_sub 1) (fun c hc => sub_nonneg.2 (h0 c hc))
    fun t ht c hc hmin h1 h2 => by
      have a1 := hr t ht c hc (by linarith) (by linarith)
      have a2 := hpull t ht c hc (by linarith) fun q hq => by have := hmin q hq; linarith
      nlinarith
  exact fun t ht c hc => sub_nonneg.1 (h t ht c hc)

/-- On a compact time interval finitely many continuous quantities are bounded. -/
theorem bounded_run {ι : Type} {n : ℕ} (cells : Finset ι) (T : ℝ) (phi : ℝ → Fin n → ι → ℝ)
    (hc : ∀ t ∈ Icc 0 T, ∀ c ∈ cells, ∀ p, ContinuousAt (fun s => phi s p c) t) :
    ∃ R, ∀ t ∈ Icc 0 T, ∀ c ∈ cells, ∀ p, |phi t p c| ≤ R := by
  have h1 : ∀ x : ι × Fin n, x.1 ∈ cells → ∃ R, ∀ t ∈ Icc 0 T, |phi t x.2 x.1| ≤ R := fun x hx => by
    obtain ⟨R, hR⟩ := isCompact_Icc.exists_bound_of_continuousOn (s := Icc 0 T) (f := fun t => phi t x.2 x.1)
      fun t ht => (hc t ht x.1 hx x.2).continuousWithinAt
    exact ⟨R, hR⟩
  choose! R hR using h1
  refine ⟨∑ x ∈ cells ×ˢ (Finset.univ : Finset (Fin n)), |R x|, fun t ht c hc p => ?_⟩
  refine (hR (c, p) hc t ht).trans ((le_abs_self _).trans ?_)
  exact Finset.single_le_sum (f := fun x => |R x|) (fun _ _ => abs_nonneg _) (Finset.mem_product.2 ⟨hc, Finset.mem_univ p⟩)

/-- ... and positive ones stay away from zero. -/
theorem away_from_zero {ι : Type} {n : ℕ} (cells : Finset ι) (T : ℝ) (phi : ℝ → Fin n → ι → ℝ)
    (hc : ∀ t ∈ Icc 0 T, ∀ c ∈ cells, ∀ p, ContinuousAt (fun s => phi s p c) t)
    (hS : ∀ t ∈ Icc 0 T, ∀ c ∈ cells, 0 < squares fun p => phi t p c) :
    ∃ s > 0, ∀ t ∈ Icc 0 T, ∀ c ∈ cells, s ≤ squares fun p => phi t p c := by
  classical
  induction cells using Finset.induction_on with
  | empty => exact ⟨1, one_pos, by simp⟩
  | insert a S _ ih =>
    obtain ⟨s, hs, h⟩ := ih (fun t ht c h => hc t ht c (Finset.mem_insert_of_mem h)) fun t ht c h => hS t ht c (Finset.mem_insert_of_mem h)
    have hcont : ContinuousOn (fun t => squares fun p => phi t p a) (Icc 0 T) := by
      unfold squares
      refine continuousOn_finset_sum _ fun p _ => ?_
      have : ContinuousOn (fun t => phi t p a) (Icc 0 T) := fun t ht => (hc t ht a (Finset.mem_insert_self _ _) p).continuousWithinAt
      exact this.mul this
    rcases (Icc (0 : ℝ) T).eq_empty_or_nonempty with he | hne
    · exact ⟨1, one_pos, fun t ht => by rw [he] at ht; exact absurd ht (notMem_empty _)⟩
    · obtain ⟨x, hx, hmin⟩ := isCompact_Icc.exists_isMinOn hne hcont
      refine ⟨min s (squares fun p => phi x p a), lt_min hs (hS x hx a (Finset.mem_insert_self _ _)), fun t ht c hmem => ?_⟩
      rcases Finset.mem_insert.1 hmem with rfl | hmem
      · exact (min_le_right _ _).trans (hmin ht)
      · exact (min_le_left _ _).trans (h t ht c hmem)

/-- Along a run the rates are `mob` times diffusion, the frame, and a term with the order parameter as a factor, bounded. -/
theorem multi_factor {ι : Type} (n : ℕ) (cells : Finset ι) (gamma m T : ℝ) (mob : ℝ → ι → ℝ) (f : ℝ → ι → GrainForce) (D Fr phi : ℝ → Fin (n + 1) → ι → ℝ)
    (hM : ∃ M, ∀ t ∈ Icc 0 T, ∀ c ∈ cells, |mob t c| ≤ M) (hB : ∃ B, ∀ t ∈ Icc 0 T, ∀ c ∈ cells, Gap n (f t c) B)
    (hsol : ∀ t ∈ Icc 0 T, ∀ c ∈ cells, ∀ p, HasDerivAt (fun s => phi s p c)
      (cellRateM n gamma m (mob t c) (f t c) (fun k => D t k c) (fun k => phi t k c) p + Fr t p c) t)
    (hS : ∀ t ∈ Icc 0 T, ∀ c ∈ cells, 0 < squares fun p => phi t p c) :
    ∃ K, ∃ G : ℝ → Fin (n + 1) → ι → ℝ, ∀ t ∈ Icc 0 T, ∀ c ∈ cells, ∀ p, |G t p c| ≤ K ∧
      HasDerivAt (fun s => phi s p c) (mob t c * D t p c + Fr t p c + phi t p c * G t p c) t := by
  obtain ⟨M, hM⟩ := hM
  obtain ⟨B, hB⟩ := hB
  have hcont : ∀ t ∈ Icc 0 T, ∀ c ∈ cells, ∀ p, ContinuousAt (fun s => phi s p c) t := fun t ht c hc p => (hsol t ht c hc p).continuousAt
  obtain ⟨R, hR⟩ := bounded_run cells T phi hcont
  obtain ⟨s, hs, hs'⟩ := away_from_zero cells T phi hcont hS
  have hB' : ∀ t ∈ Icc 0 T, ∀ c ∈ cells, Gap n (f t c) |B| := fun t ht c hc => by
    have := hB t ht c hc
    have le := le_abs_self B
    cases hf : f t c with
    | none => trivial
    | two fl fa => rw [hf] at this; exact this.trans le
    | three nA a b d => rw [hf] at this; exact ⟨this.1.trans le, fun h => ⟨(this.2 h).1.trans le, (this.2 h).2.trans le⟩⟩
  have key : ∀ (t : ℝ) (p : Fin (n + 1)) (c : ι), ∃ g, t ∈ Icc 0 T → c ∈ cells →
      cellRateM n gamma m (mob t c) (f t c) (fun k => D t k c) (fun k => phi t k c) p = mob t c * D t p c + phi t p c * g ∧
      |g| ≤ M * (|m| * (R * R + 1 + 2 * |gamma| * ((n + 1) * (R * R) + R)) + 2 * |B| / s) := fun t p c => by
    by_cases h : t ∈ Icc 0 T ∧ c ∈ cells
    · obtain ⟨g, h1, h2⟩ := cell_factor n gamma m (mob t c) |B| R s M (f t c) (fun k => D t k c) (fun k => phi t k c) p (abs_nonneg B)
        (hB' t h.1 c h.2) hs (hs' t h.1 c h.2) (hR t h.1 c h.2) (hM t h.1 c h.2)
      exact ⟨g, fun _ _ => ⟨h1, h2⟩⟩
    · exact ⟨0, fun h1 h2 => absurd ⟨h1, h2⟩ h⟩
  choose G hG using key
  refine ⟨_, G, fun t ht c hc p => ⟨(hG t p c ht hc).2, (hsol t ht c hc p).congr_deriv ?_⟩⟩
  rw [(hG t p c ht hc).1]; ring

theorem sinter_run {ι : Type} (n : ℕ) (cells : Finset ι) (beta b T : ℝ) (mob conc : ℝ → ι → ℝ) (D Fr phi : ℝ → Fin n → ι → ℝ)
    (hM : ∃ M, ∀ t ∈ Icc 0 T, ∀ c ∈ cells, |mob t c| ≤ M) (hC : ∃ C, ∀ t ∈ Icc 0 T, ∀ c ∈ cells, |conc t c| ≤ C)
    (hsol : ∀ t ∈ Icc 0 T, ∀ c ∈ cells, ∀ p, HasDerivAt (fun s => phi s p c)
      (wangRate n beta b (conc t c) (fun k => D t k c) (fun k => phi t k c) p * mob t c + Fr t p c) t) :
    ∃ K, ∃ G : ℝ → Fin n → ι → ℝ, ∀ t ∈ Icc 0 T, ∀ c ∈ cells, ∀ p, |G t p c| ≤ K ∧
      HasDerivAt (fun s => phi s p c) (mob t c * beta * D t p c + Fr t p c + phi t p c * G t p c) t := by
  obtain ⟨M, hM⟩ := hM
  obtain ⟨C, hC⟩ := hC
  have hcont : ∀ t ∈ Icc 0 T, ∀ c ∈ cells, ∀ p, ContinuousAt (fun s => phi s p c) t := fun t ht c hc p => (hsol t ht c hc p).continuousAt
  obtain ⟨R, hR⟩ := bounded_run cells T phi hcont
  have key : ∀ (t : ℝ) (p : Fin n) (c : ι), ∃ g, t ∈ Icc 0 T → c ∈ cells →
      wangRate n beta b (conc t c) (fun k => D t k c) (fun k => phi t k c) p * mob t c = mob t c * beta * D t p c + phi t p c * g ∧
      |g| ≤ M * (12 * |b| * (1 + C + (2 + C) * R + n * (R * R))) := fun t p c => by
    by_cases h : t ∈ Icc 0 T ∧ c ∈ cells
    · obtain ⟨g, h1, h2⟩ := sinter_factor n beta b (conc t c) (mob t c) R C M (fun k => D t k c) (fun k => phi t k c) p
        (hR t h.1 c h.2) (hC t h.1 c h.2) (hM t h.1 c h.2)
      exact ⟨g, fun _ _ => ⟨h1, h2⟩⟩
    · exact ⟨0, fun h1 h2 => absurd ⟨h1, h2⟩ h⟩
  choose G hG using key
  refine ⟨_, G, fun t ht c hc p => ⟨(hG t p c ht hc).2, (hsol t ht c hc p).congr_deriv ?_⟩⟩
  rw [(hG t p c ht hc).1]; ring

/-! ## Pull of diffusion and frame, from the boundary conditions -/

theorem low2 (st : Stencil) (fr : Frame) (eps dx dy mob hi : ℝ) (hdx : 0 < dx) (hdy : 0 < dy) (hmob : 0 ≤ mob)
    (hst : st = .isotropic → dx * dx ≤ 5 * (dy * dy) ∧ dy * dy ≤ 5 * (dx * dx)) (hfr : FrameOk fr dx eps (share st dx dy) mob)
    (cells : Finset (ℤ × ℤ)) (u : Field2) (hcl : Closed2 0 hi cells u) (c : ℤ × ℤ) (hc : c ∈ cells) (hneg : u c.1 c.2 < 0)
    (hmin : ∀ q ∈ cells, u c.1 c.2 ≤ u q.1 q.2) : 0 ≤ mob * diffTerm2 st eps dx dy u c.1 c.2 + frameTerm fr dx (fun a => u a c.2) c.1 :=
  pull2 st fr eps dx dy mob hdx hdy hmob hst hfr u c.1 c.2 fun a b a1 a2 b1 b2 => by
    rcases hcl c hc a b a1 a2 b1 b2 with ⟨q, hq, e⟩ | ⟨v, hv, _, e⟩
    · rw [e]; exact hmin q hq
    · rw [e]; linarith

theorem high2 (st : Stencil) (fr : Frame) (eps dx dy mob lo hi : ℝ) (hdx : 0 < dx) (hdy : 0 < dy) (hmob : 0 ≤ mob)
    (hst : st = .isotropic → dx * dx ≤ 5 * (dy * dy) ∧ dy * dy ≤ 5 * (dx * dx)) (hfr : FrameOk fr dx eps (share st dx dy) mob)
    (cells : Finset (ℤ × ℤ)) (u : Field2) (hcl : Closed2 lo hi cells u) (c : ℤ × ℤ) (hc : c ∈ cells) (hpos : hi < u c.1 c.2)
    (hmax : ∀ q ∈ cells, u q.1 q.2 ≤ u c.1 c.2) : mob * diffTerm2 st eps dx dy u c.1 c.2 + frameTerm fr dx (fun a => u a c.2) c.1 ≤ 0 := by
  have := pull2 st fr eps dx dy mob hdx hdy hmob hst hfr (fun a b => 1 - u a b) c.1 c.2 fun a b a1 a2 b1 b2 => by
    rcases hcl c hc a b a1 a2 b1 b2 with ⟨q, hq, e⟩ | ⟨v, _, hv, e⟩
    · rw [e]; linarith [hmax q hq]
    · rw [e]; linarith
  rw [neg_diff2, neg_frame fr dx (fun a => u a c.2) c.1] at this
  linarith

theorem low3 (fr : Frame) (eps dx dy dz mob hi : ℝ) (hdx : 0 < dx) (hdy : 0 < dy) (hdz : 0 < dz) (hmob : 0 ≤ mob) (hfr : FrameOk fr dx eps 1 mob)
    (cells : Finset (ℤ × ℤ × ℤ)) (u : Field3) (hcl : Closed3 0 hi cells u) (c : ℤ × ℤ × ℤ) (hc : c ∈ cells) (hneg : u c.1 c.2.1 c.2.2 < 0)
    (hmin : ∀ q ∈ cells, u c.1 c.2.1 c.2.2 ≤ u q.1 q.2.1 q.2.2) :
    0 ≤ mob * div3 dx dy dz (gradFlux3X eps dx u) (gradFlux3Y eps dy u) (gradFlux3Z eps dz u) c.1 c.2.1 c.2.2
      + frameTerm fr dx (fun a => u a c.2.1 c.2.2) c.1 :=
  pull3 fr eps dx dy dz mob hdx hdy hdz hmob hfr u c.1 c.2.1 c.2.2 fun a b d a1 a2 b1 b2 d1 d2 => by
    rcases hcl c hc a b d a1 a2 b1 b2 d1 d2 with ⟨q, hq, e⟩ | ⟨v, hv, _, e⟩
    · rw [e]; exact hmin q hq
    · rw [e]; linarith

theorem high3 (fr : Frame) (eps dx dy dz mob lo hi : ℝ) (hdx : 0 < dx) (hdy : 0 < dy) (hdz : 0 < dz) (hmob : 0 ≤ mob) (hfr : FrameOk fr dx eps 1 mob)
    (cells : Finset (ℤ × ℤ × ℤ)) (u : Field3) (hcl : Closed3 lo hi cells u) (c : ℤ × ℤ × ℤ) (hc : c ∈ cells) (hpos : hi < u c.1 c.2.1 c.2.2)
    (hmax : ∀ q ∈ cells, u q.1 q.2.1 q.2.2 ≤ u c.1 c.2.1 c.2.2) :
    mob * div3 dx dy dz (gradFlux3X eps dx u) (gradFlux3Y eps dy u) (gradFlux3Z eps dz u) c.1 c.2.1 c.2.2
      + frameTerm fr dx (fun a => u a c.2.1 c.2.2) c.1 ≤ 0 := by
  have := pull3 fr eps dx dy dz mob hdx hdy hdz hmob hfr (fun a b d => 1 - u a b d) c.1 c.2.1 c.2.2 fun a b d a1 a2 b1 b2 d1 d2 => by
    rcases hcl c hc a b d a1 a2 b1 b2 d1 d2 with ⟨q, hq, e⟩ | ⟨v, _, hv, e⟩
    · rw [e]; linarith [hmax q hq]
    · rw [e]; linarith
  rw [neg_diff3, neg_frame fr dx (fun a => u a c.2.1 c.2.2) c.1] at this
  linarith

/-! ## C133, grains -/

/-- **C133** (2D): no order parameter of a run with several of them becomes negative, whatever the energies, the mobility, the frame and the
boundary do in time; and a grain that is nowhere at the start, and not brought in through the boundary, never appears. -/
theorem c133_nonneg_2d_partial (n : ℕ) (st : Stencil) (fr : ℝ → Frame) (eps gamma m dx dy : ℝ) (hdx : 0 < dx) (hdy : 0 < dy)
    (hst : st = .isotropic → dx * dx ≤ 5 * (dy * dy) ∧ dy * dy ≤ 5 * (dx * dx)) (mob : ℝ → Field2) (f : ℝ → ℤ → ℤ → GrainForce)
    (cells : Finset (ℤ × ℤ)) (T : ℝ) (phi : ℝ → Fin (n + 1) → Field2)
    (hmob : ∀ t ∈ Icc 0 T, ∀ c ∈ cells, 0 ≤ mob t c.1 c.2) (hM : ∃ M, ∀ t ∈ Icc 0 T, ∀ c ∈ cells, |mob t c.1 c.2| ≤ M)
    (hB : ∃ B, ∀ t ∈ Icc 0 T, ∀ c ∈ cells, Gap n (f t c.1 c.2) B)
    (hfr : ∀ t ∈ Icc 0 T, ∀ c ∈ cells, FrameOk (fr t) dx eps (share st dx dy) (mob t c.1 c.2))
    (hS : ∀ t ∈ Icc 0 T, ∀ c ∈ cells, 0 < squares fun p => phi t p c.1 c.2)
    (hsol : SolvesMulti2 n st fr eps gamma m dx dy mob f cells T phi) (p : Fin (n + 1)) :
    ((∀ t ∈ Icc 0 T, Closed2 0 1 cells (phi t p)) → (∀ c ∈ cells, 0 ≤ phi 0 p c.1 c.2) → ∀ t ∈ Icc 0 T, ∀ c ∈ cells, 0 ≤ phi t p c.1 c.2) ∧
    ((∀ t ∈ Icc 0 T, Closed2 0 0 cells (phi t p)) → (∀ c ∈ cells, phi 0 p c.1 c.2 = 0) → ∀ t ∈ Icc 0 T, ∀ c ∈ cells, phi t p c.1 c.2 = 0) := by
  obtain ⟨K, G, hG⟩ := multi_factor n cells gamma m T (fun t c => mob t c.1 c.2) (fun t c => f t c.1 c.2)
    (fun t k c => diffTerm2 st eps dx dy (phi t k) c.1 c.2) (fun t k c => frameTerm (fr t) dx (fun a => phi t k a c.2) c.1)
    (fun t k c => phi t k c.1 c.2) hM hB hsol hS
  constructor
  · exact fun hcl h0 => nonneg_of_factor cells T K (fun t c => phi t p c.1 c.2) _ (fun t c => G t p c) (fun t ht c hc => (hG t ht c hc p).2)
      (fun t ht c hc => (hG t ht c hc p).1)
      (fun t ht c hc hneg hmin => low2 st (fr t) eps dx dy _ 1 hdx hdy (hmob t ht c hc) hst (hfr t ht c hc) cells _ (hcl t ht) c hc hneg hmin) h0
  · exact fun hcl h0 => absent_of_factor cells T K (fun t c => phi t p c.1 c.2) _ (fun t c => G t p c) (fun t ht c hc => (hG t ht c hc p).2)
      (fun t ht c hc => (hG t ht c hc p).1)
      (fun t ht c hc hneg hmin => low2 st (fr t) eps dx dy _ 0 hdx hdy (hmob t ht c hc) hst (hfr t ht c hc) cells _ (hcl t ht) c hc hneg hmin)
      (fun t ht c hc hpos hmax => high2 st (fr t) eps dx dy _ 0 0 hdx hdy (hmob t ht c hc) hst (hfr t ht c hc) cells _ (hcl t ht) c hc hpos hmax) h0

/-- **C133** (3D). -/
theorem c133_nonneg_3d_partial (n : ℕ) (fr : ℝ → Frame) (eps gamma m dx dy dz : ℝ) (hdx : 0 < dx) (hdy : 0 < dy) (hdz : 0 < dz)
    (mob : ℝ → Field3) (f : ℝ → ℤ → ℤ → ℤ → GrainForce)
    (cells : Finset (ℤ × ℤ × ℤ)) (T : ℝ) (phi : ℝ → Fin (n + 1) → Field3)
    (hmob : ∀ t ∈ Icc 0 T, ∀ c ∈ cells, 0 ≤ mob t c.1 c.2.1 c.2.2) (hM : ∃ M, ∀ t ∈ Icc 0 T, ∀ c ∈ cells, |mob t c.1 c.2.1 c.2.2| ≤ M)
    (hB : ∃ B, ∀ t ∈ Icc 0 T, ∀ c ∈ cells, Gap n (f t c.1 c.2.1 c.2.2) B)
    (hfr : ∀ t ∈ Icc 0 T, ∀ c ∈ cells, FrameOk (fr t) dx eps 1 (mob t c.1 c.2.1 c.2.2))
    (hS : ∀ t ∈ Icc 0 T, ∀ c ∈ cells, 0 < squares fun p => phi t p c.1 c.2.1 c.2.2)
    (hsol : SolvesMulti3 n fr eps gamma m dx dy dz mob f cells T phi) (p : Fin (n + 1)) :
    ((∀ t ∈ Icc 0 T, Closed3 0 1 cells (phi t p)) → (∀ c ∈ cells, 0 ≤ phi 0 p c.1 c.2.1 c.2.2) →
      ∀ t ∈ Icc 0 T, ∀ c ∈ cells, 0 ≤ phi t p c.1 c.2.1 c.2.2) ∧
    ((∀ t ∈ Icc 0 T, Closed3 0 0 cells (phi t p)) → (∀ c ∈ cells, phi 0 p c.1 c.2.1 c.2.2 = 0) →
      ∀ t ∈ Icc 0 T, ∀ c ∈ cells, phi t p c.1 c.2.1 c.2.2 = 0) := by
  obtain ⟨K, G, hG⟩ := multi_factor n cells gamma m T (fun t c => mob t c.1 c.2.1 c.2.2) (fun t c => f t c.1 c.2.1 c.2.2)
    (fun t k c => div3 dx dy dz (gradFlux3X eps dx (phi t k)) (gradFlux3Y eps dy (phi t k)) (gradFlux3Z eps dz (phi t k)) c.1 c.2.1 c.2.2)
    (fun t k c => frameTerm (fr t) dx (fun a => phi t k a c.2.1 c.2.2) c.1)
    (fun t k c => phi t k c.1 c.2.1 c.2.2) hM hB hsol hS
  constructor
  · exact fun hcl h0 => nonneg_of_factor cells T K (fun t c => phi t p c.1 c.2.1 c.2.2) _ (fun t c => G t p c) (fun t ht c hc => (hG t ht c hc p).2)
      (fun t ht c hc => (hG t ht c hc p).1)
      (fun t ht c hc hneg hmin => low3 (fr t) eps dx dy dz _ 1 hdx hdy hdz (hmob t ht c hc) (hfr t ht c hc) cells _ (hcl t ht) c hc hneg hmin) h0
  · exact fun hcl h0 => absent_of_factor cells T K (fun t c => phi t p c.1 c.2.1 c.2.2) _ (fun t c => G t p c) (fun t ht c hc => (hG t ht c hc p).2)
      (fun t ht c hc => (hG t ht c hc p).1)
      (fun t ht c hc hneg hmin => low3 (fr t) eps dx dy dz _ 0 hdx hdy hdz (hmob t ht c hc) (hfr t ht c hc) cells _ (hcl t ht) c hc hneg hmin)
      (fun t ht c hc hpos hmax => high3 (fr t) eps dx dy dz _ 0 0 hdx hdy hdz (hmob t ht c hc) (hfr t ht c hc) cells _ (hcl t ht) c hc hpos hmax) h0

/-- **C133** (2D): no order parameter exceeds one as long as the energies of the phases differ by at most `gamma m`
(`1.5` times the well parameter). -/
theorem c133_below_one_2d_partial (n : ℕ) (st : Stencil) (fr : ℝ → Frame) (eps gamma m dx dy : ℝ) (hdx : 0 < dx) (hdy : 0 < dy)
    (hst : st = .isotropic → dx * dx ≤ 5 * (dy * dy) ∧ dy * dy ≤ 5 * (dx * dx)) (hgam : 0 ≤ gamma) (hm : 0 ≤ m)
    (mob : ℝ → Field2) (f : ℝ → ℤ → ℤ → GrainForce) (cells : Finset (ℤ × ℤ)) (T : ℝ) (phi : ℝ → Fin (n + 1) → Field2)
    (hmob : ∀ t ∈ Icc 0 T, ∀ c ∈ cells, 0 ≤ mob t c.1 c.2) (hB : ∀ t ∈ Icc 0 T, ∀ c ∈ cells, Gap n (f t c.1 c.2) (gamma * m))
    (hfr : ∀ t ∈ Icc 0 T, ∀ c ∈ cells, FrameOk (fr t) dx eps (share st dx dy) (mob t c.1 c.2))
    (hsol : SolvesMulti2 n st fr eps gamma m dx dy mob f cells T phi) (p : Fin (n + 1)) (hcl : ∀ t ∈ Icc 0 T, Closed2 0 1 cells (phi t p))
    (h0 : ∀ c ∈ cells, phi 0 p c.1 c.2 ≤ 1) : ∀ t ∈ Icc 0 T, ∀ c ∈ cells, phi t p c.1 c.2 ≤ 1 :=
  le_one_of_above cells T 0 (fun t c => phi t p c.1 c.2)
    (fun t c => mob t c.1 c.2 * diffTerm2 st eps dx dy (phi t p) c.1 c.2 + frameTerm (fr t) dx (fun a => phi t p a c.2) c.1) _
    (fun t ht c hc => hsol t ht c hc p)
    (fun t ht c hc h1 _ => by
      have := cell_above n gamma m (mob t c.1 c.2) (f t c.1 c.2) (fun k => diffTerm2 st eps dx dy (phi t k) c.1 c.2)
        (fun k => phi t k c.1 c.2) p hm hgam (hmob t ht c hc) (hB t ht c hc) h1
      simp only [rateMulti2]
      linarith)
    (fun t ht c hc hpos hmax => high2 st (fr t) eps dx dy _ 0 1 hdx hdy (hmob t ht c hc) hst (hfr t ht c hc) cells _ (hcl t ht) c hc hpos hmax) h0

/-- **C133** (3D). -/
theorem c133_below_one_3d_partial (n : ℕ) (fr : ℝ → Frame) (eps gamma m dx dy dz : ℝ) (hdx : 0 < dx) (hdy : 0 < dy) (hdz : 0 < dz)
    (hgam : 0 ≤ gamma) (hm : 0 ≤ m)
    (mob : ℝ → Field3) (f : ℝ → ℤ → ℤ → ℤ → GrainForce) (cells : Finset (ℤ × ℤ × ℤ)) (T : ℝ) (phi : ℝ → Fin (n + 1) → Field3)
    (hmob : ∀ t ∈ Icc 0 T, ∀ c ∈ cells, 0 ≤ mob t c.1 c.2.1 c.2.2)
    (hB : ∀ t ∈ Icc 0 T, ∀ c ∈ cells, Gap n (f t c.1 c.2.1 c.2.2) (gamma * m))
    (hfr : ∀ t ∈ Icc 0 T, ∀ c ∈ cells, FrameOk (fr t) dx eps 1 (mob t c.1 c.2.1 c.2.2))
    (hsol : SolvesMulti3 n fr eps gamma m dx dy dz mob f cells T phi) (p : Fin (n + 1)) (hcl : ∀ t ∈ Icc 0 T, Closed3 0 1 cells (phi t p))
    (h0 : ∀ c ∈ cells, phi 0 p c.1 c.2.1 c.2.2 ≤ 1) : ∀ t ∈ Icc 0 T, ∀ c ∈ cells, phi t p c.1 c.2.1 c.2.2 ≤ 1 :=
  le_one_of_above cells T 0 (fun t c => phi t p c.1 c.2.1 c.2.2)
    (fun t c => mob t c.1 c.2.1 c.2.2
      * div3 dx dy dz (gradFlux3X eps dx (phi t p)) (gradFlux3Y eps dy (phi t p)) (gradFlux3Z eps dz (phi t p)) c.1 c.2.1 c.2.2
      + frameTerm (fr t) dx (fun a => phi t p a c.2.1 c.2.2) c.1) _
    (fun t ht c hc => hsol t ht c hc p)
    (fun t ht c hc h1 _ => by
      have := cell_above n gamma m (mob t c.1 c.2.1 c.2.2) (f t c.1 c.2.1 c.2.2)
        (fun k => div3 dx dy dz (gradFlux3X eps dx (phi t k)) (gradFlux3Y eps dy (phi t k)) (gradFlux3Z eps dz (phi t k)) c.1 c.2.1 c.2.2)
        (fun k => phi t k c.1 c.2.1 c.2.2) p hm hgam (hmob t ht c hc) (hB t ht c hc) h1
      simp only [rateMulti3]
      linarith)
    (fun t ht c hc hpos hmax => high3 (fr t) eps dx dy dz _ 0 1 hdx hdy hdz (hmob t ht c hc) (hfr t ht c hc) cells _ (hcl t ht) c hc hpos hmax) h0

/-! ## C133, sintering -/

/-- **C133** (sintering, 2D): the order parameters of the particles stay between 0 and 1 whatever the density does, and absent particles stay
absent. -/
theorem c133_sinter_2d_partial (n : ℕ) (st : Stencil) (fr : ℝ → Frame) (eps beta b dx dy : ℝ) (hdx : 0 < dx) (hdy : 0 < dy)
    (hst : st = .isotropic → dx * dx ≤ 5 * (dy * dy) ∧ dy * dy ≤ 5 * (dx * dx)) (hbeta : 0 ≤ beta) (hb : 0 ≤ b)
    (mob conc : ℝ → Field2) (cells : Finset (ℤ × ℤ)) (T : ℝ) (phi : ℝ → Fin n → Field2)
    (hmob : ∀ t ∈ Icc 0 T, ∀ c ∈ cells, 0 ≤ mob t c.1 c.2) (hM : ∃ M, ∀ t ∈ Icc 0 T, ∀ c ∈ cells, |mob t c.1 c.2| ≤ M)
    (hC : ∃ C, ∀ t ∈ Icc 0 T, ∀ c ∈ cells, |conc t c.1 c.2| ≤ C)
    (hfr : ∀ t ∈ Icc 0 T, ∀ c ∈ cells, FrameOk (fr t) dx eps (share st dx dy) (mob t c.1 c.2 * beta))
    (hsol : SolvesSinter2 n st fr eps beta b dx dy mob conc cells T phi) (p : Fin n) :
    ((∀ t ∈ Icc 0 T, Closed2 0 1 cells (phi t p)) → (∀ c ∈ cells, 0 ≤ phi 0 p c.1 c.2 ∧ phi 0 p c.1 c.2 ≤ 1) →
      ∀ t ∈ Icc 0 T, ∀ c ∈ cells, 0 ≤ phi t p c.1 c.2 ∧ phi t p c.1 c.2 ≤ 1) ∧
    ((∀ t ∈ Icc 0 T, Closed2 0 0 cells (phi t p)) → (∀ c ∈ cells, phi 0 p c.1 c.2 = 0) → ∀ t ∈ Icc 0 T, ∀ c ∈ cells, phi t p c.1 c.2 = 0) := by
  obtain ⟨K, G, hG⟩ := sinter_run n cells beta b T (fun t c => mob t c.1 c.2) (fun t c => conc t c.1 c.2)
    (fun t k c => diffTerm2 st eps dx dy (phi t k) c.1 c.2) (fun t k c => frameTerm (fr t) dx (fun a => phi t k a c.2) c.1)
    (fun t k c => phi t k c.1 c.2) hM hC hsol
  have hmb : ∀ t ∈ Icc 0 T, ∀ c ∈ cells, 0 ≤ mob t c.1 c.2 * beta := fun t ht c hc => mul_nonneg (hmob t ht c hc) hbeta
  obtain ⟨M, hM⟩ := hM
  obtain ⟨C, hC⟩ := hC
  constructor
  · intro hcl h0 t ht c hc
    refine ⟨?_, ?_⟩
    · exact nonneg_of_factor cells T K (fun t c => phi t p c.1 c.2) _ (fun t c => G t p c) (fun t ht c hc => (hG t ht c hc p).2)
        (fun t ht c hc => (hG t ht c hc p).1)
        (fun t ht c hc hneg hmin => low2 st (fr t) eps dx dy _ 1 hdx hdy (hmb t ht c hc) hst (hfr t ht c hc) cells _ (hcl t ht) c hc hneg hmin)
        (fun c hc => (h0 c hc).1) t ht c hc
    · exact le_one_of_above cells T (24 * b * M * C) (fun t c => phi t p c.1 c.2)
        (fun t c => mob t c.1 c.2 * beta * diffTerm2 st eps dx dy (phi t p) c.1 c.2 + frameTerm (fr t) dx (fun a => phi t p a c.2) c.1) _
        (fun t ht c hc => hsol t ht c hc p)
        (fun t ht c hc h1 h2 => by
          have := sinter_above n beta b (conc t c.1 c.2) (mob t c.1 c.2) C M (fun k => diffTerm2 st eps dx dy (phi t k) c.1 c.2)
            (fun k => phi t k c.1 c.2) p hb (hmob t ht c hc) ((le_abs_self _).trans (hM t ht c hc)) (hC t ht c hc) h1 h2
          simp only [rateSinter2]
          linarith)
        (fun t ht c hc hpos hmax => high2 st (fr t) eps dx dy _ 0 1 hdx hdy (hmb t ht c hc) hst (hfr t ht c hc) cells _ (hcl t ht) c hc hpos hmax)
        (fun c hc => (h0 c hc).2) t ht c hc
  · exact fun hcl h0 => absent_of_factor cells T K (fun t c => phi t p c.1 c.2) _ (fun t c => G t p c) (fun t ht c hc => (hG t ht c hc p).2)
      (fun t ht c hc => (hG t ht c hc p).1)
      (fun t ht c hc hneg hmin => low2 st (fr t) eps dx dy _ 0 hdx hdy (hmb t ht c hc) hst (hfr t ht c hc) cells _ (hcl t ht) c hc hneg hmin)
      (fun t ht c hc hpos hmax => high2 st (fr t) eps dx dy _ 0 0 hdx hdy (hmb t ht c hc) hst (hfr t ht c hc) cells _ (hcl t ht) c hc hpos hmax) h0

/-- **C133** (sintering, 3D). -/
theorem c133_sinter_3d_partial (n : ℕ) (fr : ℝ → Frame) (eps beta b dx dy dz : ℝ) (hdx : 0 < dx) (hdy : 0 < dy) (hdz : 0 < dz)
    (hbeta : 0 ≤ beta) (hb : 0 ≤ b) (mob conc : ℝ → Field3) (cells : Finset (ℤ × ℤ × ℤ)) (T : ℝ) (phi : ℝ → Fin n → Field3)
    (hmob : ∀ t ∈ Icc 0 T, ∀ c ∈ cells, 0 ≤ mob t c.1 c.2.1 c.2.2) (hM : ∃ M, ∀ t ∈ Icc 0 T, ∀ c ∈ cells, |mob t c.1 c.2.1 c.2.2| ≤ M)
    (hC : ∃ C, ∀ t ∈ Icc 0 T, ∀ c ∈ cells, |conc t c.1 c.2.1 c.2.2| ≤ C)
    (hfr : ∀ t ∈ Icc 0 T, ∀ c ∈ cells, FrameOk (fr t) dx eps 1 (mob t c.1 c.2.1 c.2.2 * beta))
    (hsol : SolvesSinter3 n fr eps beta b dx dy dz mob conc cells T phi) (p : Fin n) :
    ((∀ t ∈ Icc 0 T, Closed3 0 1 cells (phi t p)) → (∀ c ∈ cells, 0 ≤ phi 0 p c.1 c.2.1 c.2.2 ∧ phi 0 p c.1 c.2.1 c.2.2 ≤ 1) →
      ∀ t ∈ Icc 0 T, ∀ c ∈ cells, 0 ≤ phi t p c.1 c.2.1 c.2.2 ∧ phi t p c.1 c.2.1 c.2.2 ≤ 1) ∧
    ((∀ t ∈ Icc 0 T, Closed3 0 0 cells (phi t p)) → (∀ c ∈ cells, phi 0 p c.1 c.2.1 c.2.2 = 0) →
      ∀ t ∈ Icc 0 T, ∀ c ∈ cells, phi t p c.1 c.2.1 c.2.2 = 0) := by
  obtain ⟨K, G, hG⟩ := sinter_run n cells beta b T (fun t c => mob t c.1 c.2.1 c.2.2) (fun t c => conc t c.1 c.2.1 c.2.2)
    (fun t k c => div3 dx dy dz (gradFlux3X eps dx (phi t k)) (gradFlux3Y eps dy (phi t k)) (gradFlux3Z eps dz (phi t k)) c.1 c.2.1 c.2.2)
    (fun t k c => frameTerm (fr t) dx (fun a => phi t k a c.2.1 c.2.2) c.1)
    (fun t k c => phi t k c.1 c.2.1 c.2.2) hM hC hsol
  have hmb : ∀ t ∈ Icc 0 T, ∀ c ∈ cells, 0 ≤ mob t c.1 c.2.1 c.2.2 * beta := fun t ht c hc => mul_nonneg (hmob t ht c hc) hbeta
  obtain ⟨M, hM⟩ := hM
  obtain ⟨C, hC⟩ := hC
  constructor
  · intro hcl h0 t ht c hc
    refine ⟨?_, ?_⟩
    · exact nonneg_of_factor cells T K (fun t c => phi t p c.1 c.2.1 c.2.2) _ (fun t c => G t p c) (fun t ht c hc => (hG t ht c hc p).2)
        (fun t ht c hc => (hG t ht c hc p).1)
        (fun t ht c hc hneg hmin => low3 (fr t) eps dx dy dz _ 1 hdx hdy hdz (hmb t ht c hc) (hfr t ht c hc) cells _ (hcl t ht) c hc hneg hmin)
        (fun c hc => (h0 c hc).1) t ht c hc
    · exact le_one_of_above cells T (24 * b * M * C) (fun t c => phi t p c.1 c.2.1 c.2.2)
        (fun t c => mob t c.1 c.2.1 c.2.2 * beta
          * div3 dx dy dz (gradFlux3X eps dx (phi t p)) (gradFlux3Y eps dy (phi t p)) (gradFlux3Z eps dz (phi t p)) c.1 c.2.1 c.2.2
          + frameTerm (fr t) dx (fun a => phi t p a c.2.1 c.2.2) c.1) _
        (fun t ht c hc => hsol t ht c hc p)
        (fun t ht c hc h1 h2 => by
          have := sinter_above n beta b (conc t c.1 c.2.1 c.2.2) (mob t c.1 c.2.1 c.2.2) C M
            (fun k => div3 dx dy dz (gradFlux3X eps dx (phi t k)) (gradFlux3Y eps dy (phi t k)) (gradFlux3Z eps dz (phi t k)) c.1 c.2.1 c.2.2)
            (fun k => phi t k c.1 c.2.1 c.2.2) p hb (hmob t ht c hc) ((le_abs_self _).trans (hM t ht c hc)) (hC t ht c hc) h1 h2
          simp only [rateSinter3]
          linarith)
        (fun t ht c hc hpos hmax => high3 (fr t) eps dx dy dz _ 0 1 hdx hdy hdz (hmb t ht c hc) (hfr t ht c hc) cells _ (hcl t ht) c hc hpos hmax)
        (fun c hc => (h0 c hc).2) t ht c hc
  · exact fun hcl h0 => absent_of_factor cells T K (fun t c => phi t p c.1 c.2.1 c.2.2) _ (fun t c => G t p c) (fun t ht c hc => (hG t ht c hc p).2)
      (fun t ht c hc => (hG t ht c hc p).1)
      (fun t ht c hc hneg hmin => low3 (fr t) eps dx dy dz _ 0 hdx hdy hdz (hmb t ht c hc) (hfr t ht c hc) cells _ (hcl t ht) c hc hneg hmin)
      (fun t ht c hc hpos hmax => high3 (fr t) eps dx dy dz _ 0 0 hdx hdy hdz (hmb t ht c hc) (hfr t ht c hc) cells _ (hcl t ht) c hc hpos hmax) h0

/-! ## Violations -/

/-- Violation: a solid beside a little melt of much higher energy grows beyond one.  One grain at one, melt at `w`, the difference of the
energies above `gamma m (1 + w²)²`: the bound `gamma m` of `c133_below_one_2d_partial` cannot be raised. -/
theorem c133_violation_above (st : Stencil) (fr : ℝ → Frame) (eps gamma m dx dy : ℝ) (mob : ℝ → Field2) (f : ℝ → ℤ → ℤ → GrainForce)
    (cells : Finset (ℤ × ℤ)) (T : ℝ) (hT : 0 ≤ T) (phi : ℝ → Fin 2 → Field2) (hsol : SolvesMulti2 1 st fr eps gamma m dx dy mob f cells T phi)
    (c : ℤ × ℤ) (hc : c ∈ cells) (hmob : 0 < mob 0 c.1 c.2) (w fl fa : ℝ) (hw : 0 < w) (hf : f 0 c.1 c.2 = .two fl fa)
    (hsolid : ∀ a b, phi 0 0 a b = 1) (hmelt : ∀ a b, phi 0 1 a b = w) (hgap : gamma * m * ((1 + w * w) * (1 + w * w)) < fl - fa) :
    ∃ τ > 0, ∀ t ∈ Ioo 0 τ, 1 < phi t 0 c.1 c.2 := by
  have hd := hsol 0 ⟨le_rfl, hT⟩ c hc 0
  have hr : rateMulti2 1 st (fr 0) eps gamma m dx dy (mob 0) (f 0) (phi 0) 0 c.1 c.2
      = 2 * (w * w) * mob 0 c.1 c.2 / ((1 + w * w) * (1 + w * w)) * (fl - fa - gamma * m * ((1 + w * w) * (1 + w * w))) := by
    have h1 : (1 + w * w) ≠ 0 := by nlinarith [mul_self_nonneg w]
    have e : (Fin.last 1 : Fin 2) = 1 := rfl
    have e2 : ∑ k : Fin (1 + 1), phi 0 k c.1 c.2 * phi 0 k c.1 c.2 = 1 + w * w := by
      rw [Fin.sum_univ_two, hsolid, hmelt]; ring
    have e3 : frameTerm (fr 0) dx (fun _ => 1) c.1 = 0 := frame_uniform (fr 0) dx 1 _ (fun _ => rfl) _
    simp only [rateMulti2, cellRateM, diff_uniform st eps dx dy 1 (phi 0 0) hsolid, hf, drive,
      multiDriving, multiWell, e2, Fin.sum_univ_one, hsolid, hmelt, e, e3, Fin.castSucc_zero, if_neg (by decide : ¬ (0 : Fin 2) = 1)]
    field_simp
    ring
  obtain ⟨τ, hτ, h⟩ := eventually_neg (g := fun s => 1 - phi s 0 c.1 c.2) (hd.const_sub 1) (by simp [hsolid]) (by
    rw [hr]
    have hp : 0 < (1 + w * w) * (1 + w * w) := by positivity
    have : 0 < 2 * (w * w) * mob 0 c.1 c.2 / ((1 + w * w) * (1 + w * w)) := div_pos (by positivity) hp
    have := mul_pos this (sub_pos.2 hgap)
    linarith)
  exact ⟨τ, hτ, fun t ht => by have := h t ht; linarith⟩

/-- Violation: the upwind scheme of the moving frame makes order parameters negative ahead of a grain, with wells and forces or not. -/
theorem c133_violation_upwind (n : ℕ) (fr : ℝ → Frame) (vel eps gamma m dx dy : ℝ) (hdx : 0 < dx) (physb : Bool) (ilast : ℤ)
    (hfr : fr 0 = .upwind vel physb ilast) (hvel : 0 < vel) (mob : ℝ → Field2) (f : ℝ → ℤ → ℤ → GrainForce)
    (cells : Finset (ℤ × ℤ)) (T : ℝ) (hT : 0 ≤ T) (phi : ℝ → Fin (n + 1) → Field2) (hsol : SolvesMulti2 n .simple fr eps gamma m dx dy mob f cells T phi)
    (c : ℤ × ℤ) (hc : c ∈ cells) (hlast : c.1 ≠ ilast) (hS : 0 < squares fun p => phi 0 p c.1 c.2) (p : Fin (n + 1))
    (h0 : phi 0 p c.1 c.2 = 0) (hE : phi 0 p (c.1 + 1) c.2 = 0) (hW : phi 0 p (c.1 - 1) c.2 = 0)
    (hN : phi 0 p c.1 (c.2 + 1) = 0) (hS' : phi 0 p c.1 (c.2 - 1) = 0) (hw : 0 < phi 0 p (c.1 + 2) c.2) :
    ∃ τ > 0, ∀ t ∈ Ioo 0 τ, phi t p c.1 c.2 < 0 := by
  refine eventually_neg (hsol 0 ⟨le_rfl, hT⟩ c hc p) h0 ?_
  have hg : ∃ D, 0 ≤ D ∧ Gap n (f 0 c.1 c.2) D := by
    cases hf : f 0 c.1 c.2 with
    | none => exact ⟨0, le_rfl, trivial⟩
    | two fl fa => exact ⟨_, abs_nonneg _, le_rfl⟩
    | three nA a b d =>
      refine ⟨|a - b| + |a - d| + |b - d|, by positivity, ?_, fun _ => ⟨?_, ?_⟩⟩ <;> linarith [abs_nonneg (a - b), abs_nonneg (a - d), abs_nonneg (b - d)]
  obtain ⟨D, hD, hg⟩ := hg
  obtain ⟨e, he, -⟩ := drive_factor n _ D hD hg _ p hS
  have hk : 0 < vel / (6 * dx) := div_pos hvel (by linarith)
  simp only [rateMulti2, cellRateM, he, multiWell, h0, zero_mul, mul_zero, hfr, frameTerm, convectUpwind3, diff_simple, ← sub_eq_add_neg, hE, hW, hN, hS', hlast,
    and_false, if_false]
  nlinarith [mul_pos hk hw]

/-- The hypotheses of the theorems are met: two grains and a melt at rest in their wells, for any energies. -/
example : SolvesMulti2 2 .simple (fun _ => .fixed) 1 (3 / 2) 4 1 1 (fun _ _ _ => 1) (fun _ _ _ => .three 1 5 (-2) 3) {(0, 0), (1, 0)} 1
      (fun _ p _ _ => if p = 0 then 1 else 0) ∧
    (∀ c ∈ ({(0, 0), (1, 0)} : Finset (ℤ × ℤ)), 0 < squares fun p : Fin 3 => if p = 0 then (1 : ℝ) else 0) ∧
    Gap 2 (.three 1 5 (-2) 3) 7 := by
  refine ⟨fun t _ c _ p => ?_, fun c _ => ?_, ?_⟩
  · refine (hasDerivAt_const t _).congr_deriv ?_
    have hd : ∀ v : ℝ, diffTerm2 .simple 1 1 1 (fun _ _ => v) c.1 c.2 = 0 := fun v => diff_uniform _ _ _ _ v _ (fun _ _ => rfl) _ _
    fin_cases p <;> simp [rateMulti2, cellRateM, hd, frameTerm, drive, ternaryDriving, multiWell, Fin.sum_univ_three, Fin.sum_univ_two, Fin.last]
  · simp [squares, Fin.sum_univ_three]
  · norm_num [Gap]

end AMPE.MultiBounds.Props
