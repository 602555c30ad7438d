import Verif.Model.ThreeBounds
import Verif.Props.PhaseBounds
import Verif.Props.PhaseRHS

/-!
# C132: three phases remain fractions, and an absent phase does not appear
-/

namespace AMPE.ThreeBounds.Props

open AMPE.Functions AMPE.Flux AMPE.PhaseRHS AMPE.PhaseBounds AMPE.PhaseBounds.Props AMPE.Invariance AMPE.ThreeBounds Set

/-! ## Specification -/

/-- Three phase fractions. -/
def Fractions (x : Fin 3 → ℝ) : Prop := (∀ p, 0 ≤ x p) ∧ x 0 + x 1 + x 2 = 1

/-- Boundary conditions (see `Closed2`): next to a cell the stencils read the phases of a cell, or phases coming from fractions prescribed on
the face. -/
def ClosedV2 (ok : (Fin 3 → ℝ) → Prop) (cells : Finset (ℤ × ℤ)) (phi : Fin 3 → Field2) : Prop :=
  ∀ c ∈ cells, ∀ a b : ℤ, -1 ≤ a → a ≤ 1 → -1 ≤ b → b ≤ 1 →
    (∃ q ∈ cells, ∀ p, phi p (c.1 + a) (c.2 + b) = phi p q.1 q.2) ∨
      ∃ v, ok v ∧ ∀ p, phi p (c.1 + a) (c.2 + b) = 2 * v p - phi p c.1 c.2

def ClosedV3 (ok : (Fin 3 → ℝ) → Prop) (cells : Finset (ℤ × ℤ × ℤ)) (phi : Fin 3 → Field3) : Prop :=
  ∀ n ∈ cells, ∀ a b c : ℤ, -1 ≤ a → a ≤ 1 → -1 ≤ b → b ≤ 1 → -1 ≤ c → c ≤ 1 →
    (∃ q ∈ cells, ∀ p, phi p (n.1 + a) (n.2.1 + b) (n.2.2 + c) = phi p q.1 q.2.1 q.2.2) ∨
      ∃ v, ok v ∧ ∀ p, phi p (n.1 + a) (n.2.1 + b) (n.2.2 + c) = 2 * v p - phi p n.1 n.2.1 n.2.2

/-- The speed of the frame, zero if it is fixed (or upwind: excluded by `FrameOk`). -/
def speed : Frame → ℝ
  | .centred v => |v|
  | _ => 0

/-! ## The driving force -/

/-- Driving force on a phase of fraction `a` next to two others. -/
noncomputable def push (a b c wa wb wc : ℝ) : ℝ :=
  let ra := fpD00 a b c * wa + fpD01 b a c * wb + fpD01 c a b * wc
  let rb := fpD00 b a c * wb + fpD01 a b c * wa + fpD01 c b a * wc
  let rc := fpD00 c a b * wc + fpD01 a c b * wa + fpD01 b c a * wb
  (ra + rb + rc) / 3 - ra

theorem fpD00_comm (a b c : ℝ) : fpD00 a b c = fpD00 a c b := by
  simp only [fpD00]; split_ifs <;> ring

theorem driving_push (phi w : Fin 3 → ℝ) (p : Fin 3) :
    threeDriving fpD00 fpD01 phi (w 0) (w 1) (w 2) p = push (phi p) (phi (p + 1)) (phi (p + 2)) (w p) (w (p + 1)) (w (p + 2)) := by
  have h0 := fpD00_comm (phi 0) (phi 2) (phi 1)
  have h1 := fpD00_comm (phi 1) (phi 2) (phi 0)
  have h2 := fpD00_comm (phi 2) (phi 1) (phi 0)
  fin_cases p <;>
  · simp only [threeDriving, push, Fin.zero_eta, Fin.mk_one, Fin.reduceFinMk, Fin.isValue, Fin.reduceAdd, zero_add, h0, h1, h2, Matrix.cons_val_zero,
      Matrix.cons_val_one, Matrix.cons_val]
    ring

theorem D00_in {a b c : ℝ} (ha : 0 ≤ a) (ha' : a ≤ 1) (hs : a + b + c = 1) :
    fpD00 a b c = 5 * a * b * (2 * c + 3 * a * b) + 5 * a * c * (2 * b + 3 * a * c) := by
  obtain rfl : c = 1 - a - b := by linarith
  simp only [fpD00, if_neg (not_lt.2 ha), if_neg (not_lt.2 ha')]
  ring

theorem D01_in {a b c : ℝ} (ha : 0 ≤ a) (ha' : a ≤ 1) (hb : 0 ≤ b) (hb' : b ≤ 1) (hs : a + b + c = 1) :
    fpD01 a b c = -(5 * a * b * (2 * c + 3 * a * b)) := by
  simp only [fpD01, if_neg (not_lt.2 ha), if_neg (not_lt.2 ha'), if_neg (not_lt.2 hb), if_neg (not_lt.2 hb')]
  rw [D00_in hb hb' (by linarith)]
  obtain rfl : c = 1 - a - b := by linarith
  ring

/-- Between fractions the force on a phase is a sum of exchanges with the two others, each zero when one of the two phases is absent, and
depends on the differences of the energies only. -/
theorem push_in {a b c : ℝ} (ha : 0 ≤ a) (hb : 0 ≤ b) (hc : 0 ≤ c) (hs : a + b + c = 1) (wa wb wc : ℝ) :
    push a b c wa wb wc = 5 * a * b * (2 * c + 3 * a * b) * (wb - wa) + 5 * a * c * (2 * b + 3 * a * c) * (wc - wa) := by
  have ha' : a ≤ 1 := by linarith
  have hb' : b ≤ 1 := by linarith
  have hc' : c ≤ 1 := by linarith
  simp only [push]
  rw [D00_in ha ha' hs, D00_in hb hb' (by linarith : b + a + c = 1), D00_in hc hc' (by linarith : c + a + b = 1), D01_in ha ha' hb hb' hs,
    D01_in ha ha' hc hc' (by linarith : a + c + b = 1), D01_in hb hb' ha ha' (by linarith : b + a + c = 1),
    D01_in hb hb' hc hc' (by linarith : b + c + a = 1), D01_in hc hc' ha ha' (by linarith : c + a + b = 1),
    D01_in hc hc' hb hb' (by linarith : c + b + a = 1)]
  ring

theorem abs_mul_le_of {x y k B : ℝ} (hx : |x| ≤ k) (hy : |y| ≤ B) : |x * y| ≤ k * B := by
  rw [abs_mul]; exact mul_le_mul hx hy (abs_nonneg _) ((abs_nonneg _).trans hx)

theorem push_small {a b c wa wb wc B : ℝ} (ha : 0 ≤ a) (hb : 0 ≤ b) (hc : 0 ≤ c) (hs : a + b + c = 1) (h1 : |wa| ≤ B) (h2 : |wb| ≤ B)
    (h3 : |wc| ≤ B) : push a b c wa wb wc ≤ 100 * B * a := by
  rw [push_in ha hb hc hs]
  have ex : ∀ x y w : ℝ, 0 ≤ x → x ≤ 1 → 0 ≤ y → y ≤ 1 → |w| ≤ B → 5 * a * x * (2 * y + 3 * a * x) * (w - wa) ≤ 50 * B * a :=
    fun x y w x0 x1 y0 y1 hw => by
      have hd : w - wa ≤ 2 * B := by have := (abs_le.1 hw).2; have := (abs_le.1 h1).1; linarith
      have ha1 : a ≤ 1 := by linarith
      have hax : a * x ≤ 1 := mul_le_one₀ ha1 x0 x1
      have hax0 : 0 ≤ a * x := mul_nonneg ha x0
      have hB : 0 ≤ B := (abs_nonneg _).trans hw
      have hk : 0 ≤ 5 * a * x * (2 * y + 3 * a * x) := by
        have : 0 ≤ 2 * y + 3 * a * x := by nlinarith
        have : 0 ≤ 5 * a * x := by nlinarith
        positivity
      have hk' : 5 * a * x * (2 * y + 3 * a * x) ≤ 25 * a := by
        have e1 : 2 * y + 3 * a * x ≤ 5 := by nlinarith
        have e2 : 5 * a * x ≤ 5 * a := by nlinarith
        calc 5 * a * x * (2 * y + 3 * a * x) ≤ 5 * a * x * 5 := mul_le_mul_of_nonneg_left e1 (by nlinarith)
          _ ≤ 25 * a := by linarith
      calc _ ≤ 5 * a * x * (2 * y + 3 * a * x) * (2 * B) := mul_le_mul_of_nonneg_left hd hk
        _ ≤ 25 * a * (2 * B) := mul_le_mul_of_nonneg_right hk' (by linarith)
        _ = 50 * B * a := by ring
  have := ex b c wb hb (by linarith) hc (by linarith) h2
  have := ex c b wc hc (by linarith) hb (by linarith) h3
  linarith

/-- A phase slightly negative: what the two others exchange with it. -/
theorem pair_small {a x y : ℝ} (ha : a < 0) (ha' : -(1 / 3) < a) (hx : a ≤ x) (hy : a ≤ y) (hs : a + x + y = 1) :
    |fpD00 x a y + fpD01 x y a| ≤ -(25 * a) := by
  by_cases x0 : x < 0
  · simp only [fpD00, fpD01, if_pos x0, add_zero, abs_zero]; linarith
  by_cases x1 : x > 1
  · simp only [fpD00, fpD01, if_pos x1, if_neg x0, add_zero, abs_zero]; linarith
  have x0' := not_lt.1 x0
  have x1' := not_lt.1 x1
  have y0 : ¬ y < 0 := by intro h; linarith
  by_cases y1 : y > 1
  · simp only [fpD01, if_neg x0, if_neg x1, if_neg y0, if_pos y1, add_zero, fpD00]
    have hxa : x ≤ -a := by linarith
    have h1 : |(y - a) * (y - a) * (3 * x - 2) + (1 - x) * (1 - x) * (3 * x + 2)| ≤ 10 := by
      have hya : (y - a) * (y - a) ≤ 25 / 9 := by nlinarith
      have hya0 : 0 ≤ (y - a) * (y - a) := mul_self_nonneg _
      have hxx : (1 - x) * (1 - x) ≤ 1 := by nlinarith
      have hxx0 : 0 ≤ (1 - x) * (1 - x) := mul_self_nonneg _
      rw [abs_le]
      constructor <;> nlinarith
    have h2 : |2.5 * x| ≤ 2.5 * -a := by rw [abs_of_nonneg (by linarith)]; linarith
    have := abs_mul_le_of h2 h1
    linarith
  · have e : fpD00 x a y + fpD01 x y a = 5 * a * x * (2 * y + 3 * a * x) := by
      rw [D00_in x0' x1' (by linarith), D01_in x0' x1' (not_lt.1 y0) (not_lt.1 y1) (by linarith)]; ring
    rw [e]
    have h1 : |2 * y + 3 * a * x| ≤ 5 := by
      have := not_lt.1 y0; have := not_lt.1 y1
      rw [abs_le]; constructor <;> nlinarith
    have h2 : |5 * a * x| ≤ 5 * -a := by
      rw [abs_of_nonpos (by nlinarith)]; nlinarith
    have := abs_mul_le_of h2 h1
    linarith

theorem push_neg {a b c wa wb wc B : ℝ} (ha : a < 0) (ha' : -(1 / 3) < a) (hb : a ≤ b) (hc : a ≤ c) (hs : a + b + c = 1) (h2 : |wb| ≤ B)
    (h3 : |wc| ≤ B) : 100 * B * a ≤ push a b c wa wb wc := by
  have z1 : fpD00 a b c = 0 := by simp [fpD00, ha]
  have z2 : fpD01 a b c = 0 := by simp [fpD01, ha]
  have z3 : fpD01 a c b = 0 := by simp [fpD01, ha]
  have z4 : fpD01 b a c = 0 := by simp [fpD01, ha]
  have z5 : fpD01 c a b = 0 := by simp [fpD01, ha]
  simp only [push, z1, z2, z3, z4, z5]
  have e1 := abs_mul_le_of (pair_small ha ha' hb hc (by linarith)) h2
  have e2 := abs_mul_le_of (pair_small ha ha' hc hb (by linarith)) h3
  have hB : 0 ≤ B := (abs_nonneg _).trans h2
  have := (abs_le.1 e1).1
  have := (abs_le.1 e2).1
  nlinarith

/-- The triple well pushes a negative phase back. -/
theorem well_low {a b c : ℝ} (ha : a < 0) (hs : a + b + c = 1) : derivTripleWellFunc a b c ≤ 0 := by
  obtain rfl : c = 1 - a - b := by linarith
  have e : derivTripleWellFunc a b (1 - a - b) = 32 * a * (2 * (1 - a) * (1 - a) - (1 - a) - 2 * (b * (1 - a - b))) := by
    simp only [derivTripleWellFunc]; ring
  rw [e]
  have : 0 ≤ 2 * (1 - a) * (1 - a) - (1 - a) - 2 * (b * (1 - a - b)) := by nlinarith [sq_nonneg (2 * b - (1 - a))]
  nlinarith

theorem well_high {a b c : ℝ} (ha : 0 ≤ a) (hb : 0 ≤ b) (hc : 0 ≤ c) (hs : a + b + c = 1) : -(32 * a) ≤ derivTripleWellFunc a b c := by
  obtain rfl : c = 1 - a - b := by linarith
  have e : derivTripleWellFunc a b (1 - a - b) = 32 * a * (2 * (1 - a) * (1 - a) - (1 - a) - 2 * (b * (1 - a - b))) := by
    simp only [derivTripleWellFunc]; ring
  rw [e]
  have : -1 ≤ 2 * (1 - a) * (1 - a) - (1 - a) - 2 * (b * (1 - a - b)) := by nlinarith [sq_nonneg (2 * b - (1 - a))]
  nlinarith

theorem cell_sum (scale mob : ℝ) (diff phi w : Fin 3 → ℝ) :
    cellRate3 scale mob diff phi w 0 + cellRate3 scale mob diff phi w 1 + cellRate3 scale mob diff phi w 2 = 0 := by
  have h1 := AMPE.PhaseRHS.Props.c34_rate_sum_zero scale diff phi
  have h2 := AMPE.PhaseRHS.Props.c34_driving_sum_zero fpD00 fpD01 phi (w 0) (w 1) (w 2)
  simp only [cellRate3]
  linear_combination mob * h1 + mob * h2

theorem well_sum (phi : Fin 3 → ℝ) (p : Fin 3) (scale : ℝ) (diff : Fin 3 → ℝ) (hd : diff 0 + diff 1 + diff 2 = 0) :
    threeCell scale diff phi p = diff p - scale * derivTripleWellFunc (phi p) (phi (p + 1)) (phi (p + 2)) := by
  simp only [threeCell]
  have e : derivTripleWellFunc (phi 0) (phi (0 + 1)) (phi (0 + 2)) + derivTripleWellFunc (phi 1) (phi (1 + 1)) (phi (1 + 2))
      + derivTripleWellFunc (phi 2) (phi (2 + 1)) (phi (2 + 2)) = 0 := by
    simp only [derivTripleWellFunc, Fin.isValue, Fin.reduceAdd, zero_add]
    ring
  linear_combination (-1 / 3) * hd + scale / 3 * e

theorem perm_sum (x : Fin 3 → ℝ) (p : Fin 3) : x p + x (p + 1) + x (p + 2) = x 0 + x 1 + x 2 := by
  fin_cases p <;> simp <;> ring

/-- Rate of a slightly negative phase that is the smallest of its cell. -/
theorem cell3_low {scale mob B : ℝ} {diff phi w : Fin 3 → ℝ} (hsc : 0 ≤ scale) (hmob : 0 ≤ mob) (hw : ∀ k, |mob * w k| ≤ B)
    (hd : diff 0 + diff 1 + diff 2 = 0) (hs : phi 0 + phi 1 + phi 2 = 1) (p : Fin 3) (hmin : ∀ k, phi p ≤ phi k) (h0 : phi p < 0)
    (h1 : -(1 / 3) < phi p) : mob * diff p + 100 * B * phi p ≤ cellRate3 scale mob diff phi w p := by
  have hs' := (perm_sum phi p).trans hs
  rw [cellRate3, well_sum phi p scale diff hd, driving_push]
  have a1 := mul_nonneg (mul_nonneg hmob hsc) (neg_nonneg.2 (well_low h0 hs'))
  have a2 := push_neg (wa := mob * w p) h0 h1 (hmin (p + 1)) (hmin (p + 2)) hs' (hw (p + 1)) (hw (p + 2))
  have e : push (phi p) (phi (p + 1)) (phi (p + 2)) (mob * w p) (mob * w (p + 1)) (mob * w (p + 2))
      = mob * push (phi p) (phi (p + 1)) (phi (p + 2)) (w p) (w (p + 1)) (w (p + 2)) := by simp only [push]; ring
  rw [e] at a2
  linarith

theorem cell3_high {scale mob B B' : ℝ} {diff phi w : Fin 3 → ℝ} (hsc : 0 ≤ scale) (hmob : 0 ≤ mob) (hB' : mob * scale ≤ B')
    (hw : ∀ k, |mob * w k| ≤ B)
    (hd : diff 0 + diff 1 + diff 2 = 0) (hphi : Fractions phi) (p : Fin 3) :
    cellRate3 scale mob diff phi w p ≤ mob * diff p + (32 * B' + 100 * B) * phi p := by
  have hs' := (perm_sum phi p).trans hphi.2
  rw [cellRate3, well_sum phi p scale diff hd, driving_push]
  have a1 := mul_le_mul_of_nonneg_left (neg_le.1 (well_high (hphi.1 p) (hphi.1 _) (hphi.1 _) hs')) (mul_nonneg hmob hsc)
  have a2 := push_small (wa := mob * w p) (hphi.1 p) (hphi.1 _) (hphi.1 _) hs' (hw p) (hw (p + 1)) (hw (p + 2))
  have a3 := mul_le_mul_of_nonneg_right hB' (hphi.1 p)
  have e : push (phi p) (phi (p + 1)) (phi (p + 2)) (mob * w p) (mob * w (p + 1)) (mob * w (p + 2))
      = mob * push (phi p) (phi (p + 1)) (phi (p + 2)) (w p) (w (p + 1)) (w (p + 2)) := by simp only [push]; ring
  rw [e] at a2
  linarith

/-! ## All cells -/

/-- The phases stay fractions if the totals are kept and diffusion and frame pull a phase towards its neighbours. -/
theorem simplex_of_pull {ι : Type} (cells : Finset ι) (scale T : ℝ) (hsc : 0 ≤ scale) (mob : ℝ → ι → ℝ) (D w phi Fr : ℝ → Fin 3 → ι → ℝ)
    (hmob : ∀ t ∈ Icc 0 T, ∀ c ∈ cells, 0 ≤ mob t c) (hB : ∃ B, ∀ t ∈ Icc 0 T, ∀ c ∈ cells, ∀ k, |mob t c * w t k c| ≤ B)
    (hsol : ∀ t ∈ Icc 0 T, ∀ c ∈ cells, ∀ p, HasDerivAt (fun s => phi s p c)
      (cellRate3 scale (mob t c) (fun k => D t k c) (fun k => phi t k c) (fun k => w t k c) p + Fr t p c) t)
    (hsum : ∀ t ∈ Icc 0 T, ∀ c ∈ cells, phi t 0 c + phi t 1 c + phi t 2 c = 1)
    (hD : ∀ t ∈ Icc 0 T, ∀ c ∈ cells, D t 0 c + D t 1 c + D t 2 c = 0)
    (hpull : ∀ t ∈ Icc 0 T, ∀ c ∈ cells, ∀ p, phi t p c < 0 → (∀ q ∈ cells, phi t p c ≤ phi t p q) → 0 ≤ mob t c * D t p c + Fr t p c)
    (h0 : ∀ c ∈ cells, ∀ p, 0 ≤ phi 0 p c) : ∀ t ∈ Icc 0 T, ∀ c ∈ cells, ∀ p, 0 ≤ phi t p c := by
  obtain ⟨B, hB⟩ := hB
  have key := stays_nonneg (cells ×ˢ (Finset.univ : Finset (Fin 3)) : Finset (ι × Fin 3)) (fun t (x : ι × Fin 3) => phi t x.2 x.1)
    (fun t (x : ι × Fin 3) => cellRate3 scale (mob t x.1) (fun k => D t k x.1) (fun k => phi t k x.1) (fun k => w t k x.1) x.2 + Fr t x.2 x.1)
    T (100 * B) (1 / 3) (by norm_num) (fun t ht x hx => hsol t ht x.1 (Finset.mem_product.1 hx).1 x.2)
    (fun x hx => h0 x.1 (Finset.mem_product.1 hx).1 x.2)
    fun t ht x hx hmin h1 h2 => by
      have hc := (Finset.mem_product.1 hx).1
      have a1 := cell3_low (scale := scale) (mob := mob t x.1) (diff := fun k => D t k x.1) (phi := fun k => phi t k x.1) (w := fun k => w t k x.1)
        hsc (hmob t ht _ hc) (hB t ht _ hc) (hD t ht _ hc) (hsum t ht _ hc) x.2
        (fun k => hmin (x.1, k) (Finset.mem_product.2 ⟨hc, Finset.mem_univ _⟩)) h2 h1
      have a2 := hpull t ht _ hc x.2 h2 fun q hq => hmin (q, x.2) (Finset.mem_product.2 ⟨hq, Finset.mem_univ _⟩)
      linarith
  exact fun t ht c hc p => key t ht (c, p) (Finset.mem_product.2 ⟨hc, Finset.mem_univ _⟩)

/-- A phase absent at the start stays absent. -/
theorem absent_of_pull {ι : Type} (cells : Finset ι) (scale T : ℝ) (hsc : 0 ≤ scale) (mob : ℝ → ι → ℝ) (D w phi Fr : ℝ → Fin 3 → ι → ℝ) (p : Fin 3)
    (hmob : ∀ t ∈ Icc 0 T, ∀ c ∈ cells, 0 ≤ mob t c) (hM : ∃ M, ∀ t ∈ Icc 0 T, ∀ c ∈ cells, mob t c * scale ≤ M)
    (hB : ∃ B, ∀ t ∈ Icc 0 T, ∀ c ∈ cells, ∀ k, |mob t c * w t k c| ≤ B)
    (hsol : ∀ t ∈ Icc 0 T, ∀ c ∈ cells, HasDerivAt (fun s => phi s p c)
      (cellRate3 scale (mob t c) (fun k => D t k c) (fun k => phi t k c) (fun k => w t k c) p + Fr t p c) t)
    (hfrac : ∀ t ∈ Icc 0 T, ∀ c ∈ cells, Fractions fun k => phi t k c)
    (hD : ∀ t ∈ Icc 0 T, ∀ c ∈ cells, D t 0 c + D t 1 c + D t 2 c = 0)
    (hpull : ∀ t ∈ Icc 0 T, ∀ c ∈ cells, 0 < phi t p c → (∀ q ∈ cells, phi t p q ≤ phi t p c) → mob t c * D t p c + Fr t p c ≤ 0)
    (h0 : ∀ c ∈ cells, phi 0 p c = 0) : ∀ t ∈ Icc 0 T, ∀ c ∈ cells, phi t p c = 0 := by
  obtain ⟨B, hB⟩ := hB
  obtain ⟨M, hM⟩ := hM
  have key := stays_nonneg cells (fun t (c : ι) => -phi t p c)
    (fun t c => -(cellRate3 scale (mob t c) (fun k => D t k c) (fun k => phi t k c) (fun k => w t k c) p + Fr t p c))
    T (32 * M + 100 * B) 1 one_pos (fun t ht c hc => (hsol t ht c hc).neg) (fun c hc => by rw [h0 c hc, neg_zero])
    fun t ht c hc hmin h1 h2 => by
      have a1 := cell3_high (scale := scale) (mob := mob t c) (diff := fun k => D t k c) (phi := fun k => phi t k c) (w := fun k => w t k c)
        hsc (hmob t ht _ hc) (hM t ht c hc) (hB t ht _ hc) (hD t ht _ hc) (hfrac t ht _ hc) p
      have a2 := hpull t ht _ hc (by linarith) fun q hq => by have := hmin q hq; linarith
      linarith
  exact fun t ht c hc => le_antisymm (by have := key t ht c hc; linarith) ((hfrac t ht c hc).1 p)

/-- The totals: only the frame changes them, and it cannot if they are one. -/
theorem total_of_frame {ι : Type} (cells : Finset ι) (T V : ℝ) (hV : 0 ≤ V) (scale : ℝ) (mob : ℝ → ι → ℝ) (D w phi Fr : ℝ → Fin 3 → ι → ℝ)
    (hsol : ∀ t ∈ Icc 0 T, ∀ c ∈ cells, ∀ p, HasDerivAt (fun s => phi s p c)
      (cellRate3 scale (mob t c) (fun k => D t k c) (fun k => phi t k c) (fun k => w t k c) p + Fr t p c) t)
    (hFr : ∀ t ∈ Icc 0 T, ∀ B, 0 ≤ B → (∀ q ∈ cells, |phi t 0 q + phi t 1 q + phi t 2 q - 1| ≤ B) → ∀ c ∈ cells,
      |Fr t 0 c + Fr t 1 c + Fr t 2 c| ≤ V * B)
    (h0 : ∀ c ∈ cells, phi 0 0 c + phi 0 1 c + phi 0 2 c = 1) :
    ∀ t ∈ Icc 0 T, ∀ c ∈ cells, phi t 0 c + phi t 1 c + phi t 2 c = 1 := by
  have key := stays_zero cells (fun t c => phi t 0 c + phi t 1 c + phi t 2 c - 1) (fun t c => Fr t 0 c + Fr t 1 c + Fr t 2 c) T V hV
    (fun t ht c hc => ((((hsol t ht c hc 0).add (hsol t ht c hc 1)).add (hsol t ht c hc 2)).sub_const 1).congr_deriv (by
      have := cell_sum scale (mob t c) (fun k => D t k c) (fun k => phi t k c) (fun k => w t k c)
      linarith))
    (fun c hc => by rw [h0 c hc, sub_self]) hFr
  exact fun t ht c hc => sub_eq_zero.1 (key t ht c hc)

theorem frame_total {fr : Frame} {dx eps sh m V B : ℝ} (hdx : 0 < dx) (hok : FrameOk fr dx eps sh m) (hV : speed fr ≤ V) (u : Fin 3 → ℤ → ℝ) (i : ℤ)
    (hE : |u 0 (i + 1) + u 1 (i + 1) + u 2 (i + 1) - 1| ≤ B) (hW : |u 0 (i + -1) + u 1 (i + -1) + u 2 (i + -1) - 1| ≤ B) :
    |frameTerm fr dx (fun a => u 0 a) i + frameTerm fr dx (fun a => u 1 a) i + frameTerm fr dx (fun a => u 2 a) i| ≤ V / dx * B := by
  have hB : 0 ≤ B := (abs_nonneg _).trans hE
  cases fr with
  | fixed =>
    simp only [frameTerm, add_zero, abs_zero]
    exact mul_nonneg (div_nonneg hV hdx.le) hB
  | centred v =>
    simp only [frameTerm, convect, ← sub_eq_add_neg] at *
    have e : 0.5 * v / dx * (u 0 (i + 1) - u 0 (i - 1)) + 0.5 * v / dx * (u 1 (i + 1) - u 1 (i - 1)) + 0.5 * v / dx * (u 2 (i + 1) - u 2 (i - 1))
        = v / dx * (0.5 * ((u 0 (i + 1) + u 1 (i + 1) + u 2 (i + 1) - 1) - (u 0 (i - 1) + u 1 (i - 1) + u 2 (i - 1) - 1))) := by ring
    rw [e]
    refine abs_mul_le_of ?_ ?_
    · rw [abs_div, abs_of_pos hdx]; exact div_le_div_of_nonneg_right hV hdx.le
    · obtain ⟨e1, e2⟩ := abs_le.1 hE
      obtain ⟨w1, w2⟩ := abs_le.1 hW
      rw [abs_le]; constructor <;> linarith
  | upwind v b l => exact absurd hok (by simp [FrameOk])

theorem diff_total2 (st : Stencil) (eps dx dy : ℝ) (u : Fin 3 → Field2) (i j : ℤ)
    (h : ∀ a b : ℤ, -1 ≤ a → a ≤ 1 → -1 ≤ b → b ≤ 1 → u 0 (i + a) (j + b) + u 1 (i + a) (j + b) + u 2 (i + a) (j + b) = 1) :
    diffTerm2 st eps dx dy (u 0) i j + diffTerm2 st eps dx dy (u 1) i j + diffTerm2 st eps dx dy (u 2) i j = 0 := by
  have h00 := h 0 0 (by norm_num) (by norm_num) (by norm_num) (by norm_num)
  have hE := h 1 0 (by norm_num) (by norm_num) (by norm_num) (by norm_num)
  have hW := h (-1) 0 (by norm_num) (by norm_num) (by norm_num) (by norm_num)
  have hN := h 0 1 (by norm_num) (by norm_num) (by norm_num) (by norm_num)
  have hS := h 0 (-1) (by norm_num) (by norm_num) (by norm_num) (by norm_num)
  simp only [add_zero] at h00 hE hW hN hS
  cases st with
  | simple =>
    simp only [diff_simple]
    linear_combination eps * eps * (1 / (dx * dx)) * (hE + hW - 2 * h00) + eps * eps * (1 / (dy * dy)) * (hN + hS - 2 * h00)
  | isotropic =>
    have hNE := h 1 1 (by norm_num) (by norm_num) (by norm_num) (by norm_num)
    have hSE := h 1 (-1) (by norm_num) (by norm_num) (by norm_num) (by norm_num)
    have hNW := h (-1) 1 (by norm_num) (by norm_num) (by norm_num) (by norm_num)
    have hSW := h (-1) (-1) (by norm_num) (by norm_num) (by norm_num) (by norm_num)
    simp only [diff_iso]
    linear_combination eps * eps / 12 * ((10 * (1 / (dx * dx)) - 2 * (1 / (dy * dy))) * (hE + hW - 2 * h00)
      + (10 * (1 / (dy * dy)) - 2 * (1 / (dx * dx))) * (hN + hS - 2 * h00)
      + (1 / (dx * dx) + 1 / (dy * dy)) * (hNE + hSE + hNW + hSW - 4 * h00))

/-! ## C132 -/

/-- Solutions in 2D. -/
def SolvesThree2 (st : Stencil) (fr : ℝ → Frame) (eps scale dx dy : ℝ) (mob : ℝ → Field2) (w : ℝ → Fin 3 → Field2)
    (cells : Finset (ℤ × ℤ)) (T : ℝ) (phi : ℝ → Fin 3 → Field2) : Prop :=
  ∀ t ∈ Icc 0 T, ∀ c ∈ cells, ∀ p, HasDerivAt (fun s => phi s p c.1 c.2) (rateThree2 st (fr t) eps scale dx dy (mob t) (w t) (phi t) p c.1 c.2) t

def SolvesThree3 (fr : ℝ → Frame) (eps scale dx dy dz : ℝ) (mob : ℝ → Field3) (w : ℝ → Fin 3 → Field3)
    (cells : Finset (ℤ × ℤ × ℤ)) (T : ℝ) (phi : ℝ → Fin 3 → Field3) : Prop :=
  ∀ t ∈ Icc 0 T, ∀ c ∈ cells, ∀ p, HasDerivAt (fun s => phi s p c.1 c.2.1 c.2.2)
    (rateThree3 (fr t) eps scale dx dy dz (mob t) (w t) (phi t) p c.1 c.2.1 c.2.2) t

theorem nb_total2 {ok : (Fin 3 → ℝ) → Prop} (hok : ∀ v, ok v → Fractions v) {cells : Finset (ℤ × ℤ)} {u : Fin 3 → Field2}
    (hcl : ClosedV2 ok cells u) {B : ℝ} (hu : ∀ q ∈ cells, |u 0 q.1 q.2 + u 1 q.1 q.2 + u 2 q.1 q.2 - 1| ≤ B) {c : ℤ × ℤ} (hc : c ∈ cells) {a b : ℤ}
    (a1 : -1 ≤ a) (a2 : a ≤ 1) (b1 : -1 ≤ b) (b2 : b ≤ 1) :
    |u 0 (c.1 + a) (c.2 + b) + u 1 (c.1 + a) (c.2 + b) + u 2 (c.1 + a) (c.2 + b) - 1| ≤ B := by
  rcases hcl c hc a b a1 a2 b1 b2 with ⟨q, hq, e⟩ | ⟨v, hv, e⟩
  · rw [e, e, e]; exact hu q hq
  · rw [e, e, e]
    have h1 := (hok v hv).2
    have h2 := abs_le.1 (hu c hc)
    rw [abs_le]; constructor <;> linarith

theorem nb_total3 {ok : (Fin 3 → ℝ) → Prop} (hok : ∀ v, ok v → Fractions v) {cells : Finset (ℤ × ℤ × ℤ)} {u : Fin 3 → Field3}
    (hcl : ClosedV3 ok cells u) {B : ℝ} (hu : ∀ q ∈ cells, |u 0 q.1 q.2.1 q.2.2 + u 1 q.1 q.2.1 q.2.2 + u 2 q.1 q.2.1 q.2.2 - 1| ≤ B)
    {n : ℤ × ℤ × ℤ} (hc : n ∈ cells) {a b c : ℤ}
    (a1 : -1 ≤ a) (a2 : a ≤ 1) (b1 : -1 ≤ b) (b2 : b ≤ 1) (c1 : -1 ≤ c) (c2 : c ≤ 1) :
    |u 0 (n.1 + a) (n.2.1 + b) (n.2.2 + c) + u 1 (n.1 + a) (n.2.1 + b) (n.2.2 + c) + u 2 (n.1 + a) (n.2.1 + b) (n.2.2 + c) - 1| ≤ B := by
  rcases hcl n hc a b c a1 a2 b1 b2 c1 c2 with ⟨q, hq, e⟩ | ⟨v, hv, e⟩
  · rw [e, e, e]; exact hu q hq
  · rw [e, e, e]
    have h1 := (hok v hv).2
    have h2 := abs_le.1 (hu n hc)
    rw [abs_le]; constructor <;> linarith

/-- **C132** (2D): three phases that start as fractions (not negative, total one) stay fractions, whatever the energies, the compositions
and the mobility do. -/
theorem c132_fractions_2d_partial (st : Stencil) (fr : ℝ → Frame) (eps scale dx dy : ℝ) (hdx : 0 < dx) (hdy : 0 < dy) (hsc : 0 ≤ scale)
    (hst : st = .isotropic → dx * dx ≤ 5 * (dy * dy) ∧ dy * dy ≤ 5 * (dx * dx))
    (mob : ℝ → Field2) (w : ℝ → Fin 3 → Field2) (cells : Finset (ℤ × ℤ)) (T : ℝ) (phi : ℝ → Fin 3 → Field2)
    (hmob : ∀ t ∈ Icc 0 T, ∀ c ∈ cells, 0 ≤ mob t c.1 c.2)
    (hfr : ∀ t ∈ Icc 0 T, ∀ c ∈ cells, FrameOk (fr t) dx eps (share st dx dy) (mob t c.1 c.2)) (hV : ∃ V, ∀ t ∈ Icc 0 T, speed (fr t) ≤ V)
    (hB : ∃ B, ∀ t ∈ Icc 0 T, ∀ c ∈ cells, ∀ k, |mob t c.1 c.2 * w t k c.1 c.2| ≤ B)
    (hcl : ∀ t ∈ Icc 0 T, ClosedV2 Fractions cells (phi t)) (hsol : SolvesThree2 st fr eps scale dx dy mob w cells T phi)
    (h0 : ∀ c ∈ cells, Fractions fun p => phi 0 p c.1 c.2) :
    ∀ t ∈ Icc 0 T, ∀ c ∈ cells, Fractions fun p => phi t p c.1 c.2 := by
  obtain ⟨V, hV⟩ := hV
  have tot : ∀ t ∈ Icc 0 T, ∀ c ∈ cells, phi t 0 c.1 c.2 + phi t 1 c.1 c.2 + phi t 2 c.1 c.2 = 1 :=
    total_of_frame cells T (|V| / dx) (by positivity) scale (fun t c => mob t c.1 c.2) (fun t k c => diffTerm2 st eps dx dy (phi t k) c.1 c.2)
      (fun t k c => w t k c.1 c.2) (fun t k c => phi t k c.1 c.2) (fun t k c => frameTerm (fr t) dx (fun a => phi t k a c.2) c.1) hsol
      (fun t ht B hB hu c hc => by
        have hE := nb_total2 (fun _ h => h) (hcl t ht) hu hc (a := 1) (b := 0) (by norm_num) (by norm_num) (by norm_num) (by norm_num)
        have hW := nb_total2 (fun _ h => h) (hcl t ht) hu hc (a := -1) (b := 0) (by norm_num) (by norm_num) (by norm_num) (by norm_num)
        simp only [add_zero] at hE hW
        exact frame_total hdx (hfr t ht c hc) ((hV t ht).trans (le_abs_self V)) (fun k a => phi t k a c.2) c.1 hE hW)
      fun c hc => (h0 c hc).2
  have pos := simplex_of_pull cells scale T hsc (fun t c => mob t c.1 c.2) (fun t k c => diffTerm2 st eps dx dy (phi t k) c.1 c.2)
      (fun t k c => w t k c.1 c.2) (fun t k c => phi t k c.1 c.2) (fun t k c => frameTerm (fr t) dx (fun a => phi t k a c.2) c.1) hmob hB hsol tot
      (fun t ht c hc => diff_total2 st eps dx dy (phi t) c.1 c.2 fun a b a1 a2 b1 b2 => by
        have := nb_total2 (B := 0) (fun _ h => h) (hcl t ht) (fun q hq => by rw [tot t ht q hq]; simp) hc a1 a2 b1 b2
        exact sub_eq_zero.1 (abs_nonpos_iff.1 this))
      (fun t ht c hc p hneg hmin => pull2 st (fr t) eps dx dy _ hdx hdy (hmob t ht c hc) hst (hfr t ht c hc) (phi t p) c.1 c.2 fun a b a1 a2 b1 b2 => by
        rcases hcl t ht c hc a b a1 a2 b1 b2 with ⟨q, hq, e⟩ | ⟨v, hv, e⟩
        · rw [e]; exact hmin q hq
        · rw [e]; have := hv.1 p; linarith)
      fun c hc p => (h0 c hc).1 p
  exact fun t ht c hc => ⟨pos t ht c hc, tot t ht c hc⟩

/-- **C132** (2D): a phase that is nowhere at the start (and not brought in through the boundary) never appears. -/
theorem c132_absent_2d_partial (st : Stencil) (fr : ℝ → Frame) (eps scale dx dy : ℝ) (hdx : 0 < dx) (hdy : 0 < dy) (hsc : 0 ≤ scale)
    (hst : st = .isotropic → dx * dx ≤ 5 * (dy * dy) ∧ dy * dy ≤ 5 * (dx * dx))
    (mob : ℝ → Field2) (w : ℝ → Fin 3 → Field2) (cells : Finset (ℤ × ℤ)) (T : ℝ) (phi : ℝ → Fin 3 → Field2)
    (hmob : ∀ t ∈ Icc 0 T, ∀ c ∈ cells, 0 ≤ mob t c.1 c.2) (hM : ∃ M, ∀ t ∈ Icc 0 T, ∀ c ∈ cells, mob t c.1 c.2 * scale ≤ M)
    (hfr : ∀ t ∈ Icc 0 T, ∀ c ∈ cells, FrameOk (fr t) dx eps (share st dx dy) (mob t c.1 c.2)) (hV : ∃ V, ∀ t ∈ Icc 0 T, speed (fr t) ≤ V)
    (hB : ∃ B, ∀ t ∈ Icc 0 T, ∀ c ∈ cells, ∀ k, |mob t c.1 c.2 * w t k c.1 c.2| ≤ B) (p : Fin 3)
    (hcl : ∀ t ∈ Icc 0 T, ClosedV2 (fun v => Fractions v ∧ v p = 0) cells (phi t)) (hsol : SolvesThree2 st fr eps scale dx dy mob w cells T phi)
    (h0 : ∀ c ∈ cells, Fractions fun p => phi 0 p c.1 c.2) (hp : ∀ c ∈ cells, phi 0 p c.1 c.2 = 0) :
    ∀ t ∈ Icc 0 T, ∀ c ∈ cells, phi t p c.1 c.2 = 0 := by
  have hcl' : ∀ t ∈ Icc 0 T, ClosedV2 Fractions cells (phi t) := fun t ht c hc a b a1 a2 b1 b2 =>
    (hcl t ht c hc a b a1 a2 b1 b2).imp_right fun ⟨v, hv, e⟩ => ⟨v, hv.1, e⟩
  have hfrac := c132_fractions_2d_partial st fr eps scale dx dy hdx hdy hsc hst mob w cells T phi hmob hfr hV hB hcl' hsol h0
  exact absent_of_pull cells scale T hsc (fun t c => mob t c.1 c.2) (fun t k c => diffTerm2 st eps dx dy (phi t k) c.1 c.2)
      (fun t k c => w t k c.1 c.2) (fun t k c => phi t k c.1 c.2) (fun t k c => frameTerm (fr t) dx (fun a => phi t k a c.2) c.1) p hmob hM hB
      (fun t ht c hc => hsol t ht c hc p) hfrac
      (fun t ht c hc => diff_total2 st eps dx dy (phi t) c.1 c.2 fun a b a1 a2 b1 b2 => by
        have := nb_total2 (B := 0) (fun _ h => h) (hcl' t ht) (fun q hq => by rw [(hfrac t ht q hq).2]; simp) hc a1 a2 b1 b2
        exact sub_eq_zero.1 (abs_nonpos_iff.1 this))
      (fun t ht c hc hpos hmax => by
        have := pull2 st (fr t) eps dx dy _ hdx hdy (hmob t ht c hc) hst (hfr t ht c hc) (fun a b => 1 - phi t p a b) c.1 c.2
          fun a b a1 a2 b1 b2 => by
            rcases hcl t ht c hc a b a1 a2 b1 b2 with ⟨q, hq, e⟩ | ⟨v, hv, e⟩
            · rw [e]; linarith [hmax q hq]
            · rw [e, hv.2]; linarith
        rw [neg_diff2, neg_frame (fr t) dx (fun a => phi t p a c.2) c.1] at this
        linarith)
      hp

theorem diff_total3 (eps dx dy dz : ℝ) (u : Fin 3 → Field3) (i j k : ℤ)
    (h : ∀ a b c : ℤ, -1 ≤ a → a ≤ 1 → -1 ≤ b → b ≤ 1 → -1 ≤ c → c ≤ 1 →
      u 0 (i + a) (j + b) (k + c) + u 1 (i + a) (j + b) (k + c) + u 2 (i + a) (j + b) (k + c) = 1) :
    div3 dx dy dz (gradFlux3X eps dx (u 0)) (gradFlux3Y eps dy (u 0)) (gradFlux3Z eps dz (u 0)) i j k
      + div3 dx dy dz (gradFlux3X eps dx (u 1)) (gradFlux3Y eps dy (u 1)) (gradFlux3Z eps dz (u 1)) i j k
      + div3 dx dy dz (gradFlux3X eps dx (u 2)) (gradFlux3Y eps dy (u 2)) (gradFlux3Z eps dz (u 2)) i j k = 0 := by
  have h00 := h 0 0 0 (by norm_num) (by norm_num) (by norm_num) (by norm_num) (by norm_num) (by norm_num)
  have hE := h 1 0 0 (by norm_num) (by norm_num) (by norm_num) (by norm_num) (by norm_num) (by norm_num)
  have hW := h (-1) 0 0 (by norm_num) (by norm_num) (by norm_num) (by norm_num) (by norm_num) (by norm_num)
  have hN := h 0 1 0 (by norm_num) (by norm_num) (by norm_num) (by norm_num) (by norm_num) (by norm_num)
  have hS := h 0 (-1) 0 (by norm_num) (by norm_num) (by norm_num) (by norm_num) (by norm_num) (by norm_num)
  have hU := h 0 0 1 (by norm_num) (by norm_num) (by norm_num) (by norm_num) (by norm_num) (by norm_num)
  have hD := h 0 0 (-1) (by norm_num) (by norm_num) (by norm_num) (by norm_num) (by norm_num) (by norm_num)
  simp only [add_zero, ← sub_eq_add_neg] at h00 hE hW hN hS hU hD
  simp only [div3, gradFlux3X, gradFlux3Y, gradFlux3Z, add_sub_cancel_right]
  linear_combination eps * eps * (1 / (dx * dx)) * (hE + hW - 2 * h00) + eps * eps * (1 / (dy * dy)) * (hN + hS - 2 * h00)
    + eps * eps * (1 / (dz * dz)) * (hU + hD - 2 * h00)

/-- **C132** (3D). -/
theorem c132_fractions_3d_partial (fr : ℝ → Frame) (eps scale dx dy dz : ℝ) (hdx : 0 < dx) (hdy : 0 < dy) (hdz : 0 < dz) (hsc : 0 ≤ scale)
    (mob : ℝ → Field3) (w : ℝ → Fin 3 → Field3) (cells : Finset (ℤ × ℤ × ℤ)) (T : ℝ) (phi : ℝ → Fin 3 → Field3)
    (hmob : ∀ t ∈ Icc 0 T, ∀ c ∈ cells, 0 ≤ mob t c.1 c.2.1 c.2.2)
    (hfr : ∀ t ∈ Icc 0 T, ∀ c ∈ cells, FrameOk (fr t) dx eps 1 (mob t c.1 c.2.1 c.2.2)) (hV : ∃ V, ∀ t ∈ Icc 0 T, speed (fr t) ≤ V)
    (hB : ∃ B, ∀ t ∈ Icc 0 T, ∀ c ∈ cells, ∀ k, |mob t c.1 c.2.1 c.2.2 * w t k c.1 c.2.1 c.2.2| ≤ B)
    (hcl : ∀ t ∈ Icc 0 T, ClosedV3 Fractions cells (phi t)) (hsol : SolvesThree3 fr eps scale dx dy dz mob w cells T phi)
    (h0 : ∀ c ∈ cells, Fractions fun p => phi 0 p c.1 c.2.1 c.2.2) :
    ∀ t ∈ Icc 0 T, ∀ c ∈ cells, Fractions fun p => phi t p c.1 c.2.1 c.2.2 := by
  obtain ⟨V, hV⟩ := hV
  have tot : ∀ t ∈ Icc 0 T, ∀ c ∈ cells, phi t 0 c.1 c.2.1 c.2.2 + phi t 1 c.1 c.2.1 c.2.2 + phi t 2 c.1 c.2.1 c.2.2 = 1 :=
    total_of_frame cells T (|V| / dx) (by positivity) scale (fun t c => mob t c.1 c.2.1 c.2.2)
      (fun t k c => div3 dx dy dz (gradFlux3X eps dx (phi t k)) (gradFlux3Y eps dy (phi t k)) (gradFlux3Z eps dz (phi t k)) c.1 c.2.1 c.2.2)
      (fun t k c => w t k c.1 c.2.1 c.2.2) (fun t k c => phi t k c.1 c.2.1 c.2.2)
      (fun t k c => frameTerm (fr t) dx (fun a => phi t k a c.2.1 c.2.2) c.1) hsol
      (fun t ht B hB hu c hc => by
        have hE := nb_total3 (fun _ h => h) (hcl t ht) hu hc (a := 1) (b := 0) (c := 0) (by norm_num) (by norm_num) (by norm_num) (by norm_num)
          (by norm_num) (by norm_num)
        have hW := nb_total3 (fun _ h => h) (hcl t ht) hu hc (a := -1) (b := 0) (c := 0) (by norm_num) (by norm_num) (by norm_num) (by norm_num)
          (by norm_num) (by norm_num)
        simp only [add_zero] at hE hW
        exact frame_total hdx (hfr t ht c hc) ((hV t ht).trans (le_abs_self V)) (fun k a => phi t k a c.2.1 c.2.2) c.1 hE hW)
      fun c hc => (h0 c hc).2
  have pos := simplex_of_pull cells scale T hsc (fun t c => mob t c.1 c.2.1 c.2.2)
      (fun t k c => div3 dx dy dz (gradFlux3X eps dx (phi t k)) (gradFlux3Y eps dy (phi t k)) (gradFlux3Z eps dz (phi t k)) c.1 c.2.1 c.2.2)
      (fun t k c => w t k c.1 c.2.1 c.2.2) (fun t k c => phi t k c.1 c.2.1 c.2.2)
      (fun t k c => frameTerm (fr t) dx (fun a => phi t k a c.2.1 c.2.2) c.1) hmob hB hsol tot
      (fun t ht c hc => diff_total3 eps dx dy dz (phi t) c.1 c.2.1 c.2.2 fun a b d a1 a2 b1 b2 d1 d2 => by
        have := nb_total3 (B := 0) (fun _ h => h) (hcl t ht) (fun q hq => by rw [tot t ht q hq]; simp) hc a1 a2 b1 b2 d1 d2
        exact sub_eq_zero.1 (abs_nonpos_iff.1 this))
      (fun t ht c hc p hneg hmin => pull3 (fr t) eps dx dy dz _ hdx hdy hdz (hmob t ht c hc) (hfr t ht c hc) (phi t p) c.1 c.2.1 c.2.2
        fun a b d a1 a2 b1 b2 d1 d2 => by
          rcases hcl t ht c hc a b d a1 a2 b1 b2 d1 d2 with ⟨q, hq, e⟩ | ⟨v, hv, e⟩
          · rw [e]; exact hmin q hq
          · rw [e]; have := hv.1 p; linarith)
      fun c hc p => (h0 c hc).1 p
  exact fun t ht c hc => ⟨pos t ht c hc, tot t ht c hc⟩

/-- **C132** (3D): an absent phase never appears. -/
theorem c132_absent_3d_partial (fr : ℝ → Frame) (eps scale dx dy dz : ℝ) (hdx : 0 < dx) (hdy : 0 < dy) (hdz : 0 < dz) (hsc : 0 ≤ scale)
    (mob : ℝ → Field3) (w : ℝ → Fin 3 → Field3) (cells : Finset (ℤ × ℤ × ℤ)) (T : ℝ) (phi : ℝ → Fin 3 → Field3)
    (hmob : ∀ t ∈ Icc 0 T, ∀ c ∈ cells, 0 ≤ mob t c.1 c.2.1 c.2.2) (hM : ∃ M, ∀ t ∈ Icc 0 T, ∀ c ∈ cells, mob t c.1 c.2.1 c.2.2 * scale ≤ M)
    (hfr : ∀ t ∈ Icc 0 T, ∀ c ∈ cells, FrameOk (fr t) dx eps 1 (mob t c.1 c.2.1 c.2.2)) (hV : ∃ V, ∀ t ∈ Icc 0 T, speed (fr t) ≤ V)
    (hB : ∃ B, ∀ t ∈ Icc 0 T, ∀ c ∈ cells, ∀ k, |mob t c.1 c.2.1 c.2.2 * w t k c.1 c.2.1 c.2.2| ≤ B) (p : Fin 3)
    (hcl : ∀ t ∈ Icc 0 T, ClosedV3 (fun v => Fractions v ∧ v p = 0) cells (phi t)) (hsol : SolvesThree3 fr eps scale dx dy dz mob w cells T phi)
    (h0 : ∀ c ∈ cells, Fractions fun p => phi 0 p c.1 c.2.1 c.2.2) (hp : ∀ c ∈ cells, phi 0 p c.1 c.2.1 c.2.2 = 0) :
    ∀ t ∈ Icc 0 T, ∀ c ∈ cells, phi t p c.1 c.2.1 c.2.2 = 0 := by
  have hcl' : ∀ t ∈ Icc 0 T, ClosedV3 Fractions cells (phi t) := fun t ht c hc a b d a1 a2 b1 b2 d1 d2 =>
    (hcl t ht c hc a b d a1 a2 b1 b2 d1 d2).imp_right fun ⟨v, hv, e⟩ => ⟨v, hv.1, e⟩
  have hfrac := c132_fractions_3d_partial fr eps scale dx dy dz hdx hdy hdz hsc mob w cells T phi hmob hfr hV hB hcl' hsol h0
  exact absent_of_pull cells scale T hsc (fun t c => mob t c.1 c.2.1 c.2.2)
      (fun t k c => div3 dx dy dz (gradFlux3X eps dx (phi t k)) (gradFlux3Y eps dy (phi t k)) (gradFlux3Z eps dz (phi t k)) c.1 c.2.1 c.2.2)
      (fun t k c => w t k c.1 c.2.1 c.2.2) (fun t k c => phi t k c.1 c.2.1 c.2.2)
      (fun t k c => frameTerm (fr t) dx (fun a => phi t k a c.2.1 c.2.2) c.1) p hmob hM hB
      (fun t ht c hc => hsol t ht c hc p) hfrac
      (fun t ht c hc => diff_total3 eps dx dy dz (phi t) c.1 c.2.1 c.2.2 fun a b d a1 a2 b1 b2 d1 d2 => by
        have := nb_total3 (B := 0) (fun _ h => h) (hcl' t ht) (fun q hq => by rw [(hfrac t ht q hq).2]; simp) hc a1 a2 b1 b2 d1 d2
        exact sub_eq_zero.1 (abs_nonpos_iff.1 this))
      (fun t ht c hc hpos hmax => by
        have := pull3 (fr t) eps dx dy dz _ hdx hdy hdz (hmob t ht c hc) (hfr t ht c hc) (fun a b d => 1 - phi t p a b d) c.1 c.2.1 c.2.2
          fun a b d a1 a2 b1 b2 d1 d2 => by
            rcases hcl t ht c hc a b d a1 a2 b1 b2 d1 d2 with ⟨q, hq, e⟩ | ⟨v, hv, e⟩
            · rw [e]; linarith [hmax q hq]
            · rw [e, hv.2]; linarith
        rw [neg_diff3, neg_frame (fr t) dx (fun a => phi t p a c.2.1 c.2.2) c.1] at this
        linarith)
      hp

/-- **C132**: between fractions the chemical force on a phase is a sum of exchanges with the two other phases; the exchange of two phases
vanishes when one of them is absent, grows towards the phase of lower energy, and the constraint (total rate zero) costs nothing. -/
theorem c132_exchange (phi w : Fin 3 → ℝ) (h : Fractions phi) (p : Fin 3) :
    ∃ K : Fin 3 → ℝ, (∀ q, 0 ≤ K q) ∧ (∀ q, phi p * phi q = 0 → K q = 0) ∧ (∀ q, q ≠ p → 0 < phi p * phi q → 0 < K q) ∧
      threeDriving fpD00 fpD01 phi (w 0) (w 1) (w 2) p = ∑ q, K q * (w q - w p) := by
  have hs := (perm_sum phi p).trans h.2
  have third : ∀ q, 0 ≤ 2 * (1 - phi p - phi q) + 3 * phi p * phi q ∨ q = p := fun q => by
    by_cases hq : q = p
    · exact Or.inr hq
    · left
      have e1 := h.1 0
      have e2 := h.1 1
      have e3 := h.1 2
      have e4 := h.2
      have : 0 ≤ 1 - phi p - phi q := by
        fin_cases p <;> fin_cases q <;> simp at hq ⊢ <;> linarith
      have := mul_nonneg (h.1 p) (h.1 q)
      linarith
  refine ⟨fun q => if q = p then 0 else 5 * (phi p * phi q) * (2 * (1 - phi p - phi q) + 3 * phi p * phi q), fun q => ?_, fun q hq => ?_, fun q hqp hq => ?_, ?_⟩
  · dsimp only
    split_ifs with hq
    · exact le_rfl
    · exact mul_nonneg (mul_nonneg (by norm_num) (mul_nonneg (h.1 p) (h.1 q))) ((third q).resolve_right hq)
  · dsimp only
    rw [hq]; simp
  · dsimp only
    rw [if_neg hqp]
    have e1 := h.1 0
    have e2 := h.1 1
    have e3 := h.1 2
    have e4 := h.2
    have : 0 ≤ 1 - phi p - phi q := by
      fin_cases p <;> fin_cases q <;> simp at hqp ⊢ <;> linarith
    have : 0 < 2 * (1 - phi p - phi q) + 3 * phi p * phi q := by linarith
    positivity
  · rw [driving_push, push_in (h.1 p) (h.1 _) (h.1 _) hs]
    have hsum : ∀ f : Fin 3 → ℝ, ∑ q, f q = f p + f (p + 1) + f (p + 2) := fun f => by rw [perm_sum, Fin.sum_univ_three]
    have n1 : p + 1 ≠ p := by fin_cases p <;> decide
    have n2 : p + 2 ≠ p := by fin_cases p <;> decide
    rw [hsum]
    beta_reduce
    rw [if_pos rfl, if_neg n1, if_neg n2]
    have e1 : 1 - phi p - phi (p + 1) = phi (p + 2) := by linarith
    have e2 : 1 - phi p - phi (p + 2) = phi (p + 1) := by linarith
    rw [e1, e2]; ring

/-- The other tilting functions of the code (Moelans), which no input selects, do not have the property: at an interface of two phases of
different energies the third phase gets a force, zero only where the two are equal, so that it appears on one side of the interface and
becomes negative on the other. -/
theorem c132_moelans (a b wl wa wb : ℝ) (ha : 0 < a) (hb : 0 < b) :
    threeDriving moD00 moD01 ![0, a, b] wl wa wb 0 = 2 * a * b * (a - b) * (wb - wa) / (3 * (a * a + b * b) ^ 2) ∧
      (threeDriving moD00 moD01 ![0, a, b] wl wa wb 0 = 0 ↔ a = b ∨ wa = wb) := by
  have hS : 0 < a * a + b * b := by positivity
  have e : threeDriving moD00 moD01 ![0, a, b] wl wa wb 0 = 2 * a * b * (a - b) * (wb - wa) / (3 * (a * a + b * b) ^ 2) := by
    simp only [threeDriving, moD00, moD01, Matrix.cons_val_zero, Matrix.cons_val_one, Matrix.cons_val, if_neg (not_lt.2 ha.le),
      if_neg (not_lt.2 hb.le), lt_irrefl, if_false, mul_zero, zero_mul, add_zero, zero_add, sub_zero, zero_div]
    have h1 : a * a + b * b ≠ 0 := hS.ne'
    have h2 : b * b + a * a ≠ 0 := by rw [add_comm]; exact h1
    rw [add_comm (b * b) (a * a)]
    field_simp
    ring
  refine ⟨e, ?_⟩
  rw [e, div_eq_zero_iff]
  constructor
  · rintro (h | h)
    · rcases mul_eq_zero.1 h with h | h
      · rcases mul_eq_zero.1 h with h | h
        · exact absurd h (by positivity)
        · exact Or.inl (sub_eq_zero.1 h)
      · exact Or.inr (sub_eq_zero.1 h).symm
    · exact absurd h (by positivity)
  · rintro (rfl | rfl)
    · left; simp
    · left; simp

/-- Rate of a phase in a cell where it is absent. -/
theorem rate_absent (scale mob : ℝ) (diff phi w : Fin 3 → ℝ) (hd : diff 0 + diff 1 + diff 2 = 0) (h : Fractions phi) (p : Fin 3) (hp : phi p = 0) :
    cellRate3 scale mob diff phi w p = mob * diff p := by
  have hs := (perm_sum phi p).trans h.2
  rw [cellRate3, well_sum phi p scale diff hd, driving_push, push_in (h.1 p) (h.1 _) (h.1 _) hs, hp]
  have e : derivTripleWellFunc 0 (phi (p + 1)) (phi (p + 2)) = 0 := by
    have : phi (p + 2) = 1 - phi (p + 1) := by linarith
    rw [this]; simp only [derivTripleWellFunc]; ring
  rw [e]; ring

/-- Violation: with the third order upwind formula of the moving frame a phase becomes negative in the second cell before it. -/
theorem c132_violation_upwind (fr : ℝ → Frame) (vel eps scale dx dy : ℝ) (hdx : 0 < dx) (physb : Bool) (ilast : ℤ)
    (hfr : fr 0 = .upwind vel physb ilast) (hvel : 0 < vel)
    (mob : ℝ → Field2) (w : ℝ → Fin 3 → Field2) (cells : Finset (ℤ × ℤ)) (T : ℝ) (hT : 0 ≤ T) (phi : ℝ → Fin 3 → Field2)
    (hsol : SolvesThree2 .simple fr eps scale dx dy mob w cells T phi) (c : ℤ × ℤ) (hc : c ∈ cells) (hlast : c.1 ≠ ilast)
    (hfrac : ∀ i j, Fractions fun k => phi 0 k i j) (p : Fin 3)
    (h0 : phi 0 p c.1 c.2 = 0) (hE : phi 0 p (c.1 + 1) c.2 = 0) (hW : phi 0 p (c.1 - 1) c.2 = 0)
    (hN : phi 0 p c.1 (c.2 + 1) = 0) (hS' : phi 0 p c.1 (c.2 - 1) = 0) (hw : 0 < phi 0 p (c.1 + 2) c.2) :
    ∃ τ > 0, ∀ t ∈ Ioo 0 τ, phi t p c.1 c.2 < 0 := by
  refine eventually_neg (hsol 0 ⟨le_rfl, hT⟩ c hc p) h0 ?_
  rw [rateThree2, rate_absent scale _ _ _ _ (diff_total2 .simple eps dx dy (phi 0) c.1 c.2 fun a b _ _ _ _ => (hfrac _ _).2) (hfrac _ _) p h0,
    diff_simple, hfr]
  simp only [frameTerm, convectUpwind3, ← sub_eq_add_neg, h0, hE, hN, hS', hW, if_neg (fun h : physb = true ∧ c.1 = ilast => hlast h.2)]
  have : 0 < vel / (6 * dx) * phi 0 p (c.1 + 2) c.2 := by positivity
  linarith

/-! ## The hypotheses are met -/

/-- A uniform mixture of two phases in which the first dissolves; the third is absent. -/
example : let phi : ℝ → Fin 3 → Field2 := fun t p _ _ => (![1 / 2 - t / 8, 1 / 2 + t / 8, 0] : Fin 3 → ℝ) p
    let w : ℝ → Fin 3 → Field2 := fun t p _ _ => (![0, -(1 / 8) / (15 * (1 / 2 - t / 8) ^ 2 * (1 / 2 + t / 8) ^ 2), 7] : Fin 3 → ℝ) p
    SolvesThree2 .isotropic (fun _ => .centred 1) 1 0 1 1 (fun _ _ _ => 1) w {(0, 0)} 1 phi ∧
      (∀ t, ClosedV2 (fun v => Fractions v ∧ v 2 = 0) {(0, 0)} (phi t)) ∧ (∀ t ∈ Icc (0 : ℝ) 1, Fractions fun p => phi t p 0 0) ∧
      FrameOk (.centred 1) 1 1 (share .isotropic 1 1) 1 := by
  intro phi w
  have hfrac : ∀ t ∈ Icc (0 : ℝ) 1, Fractions fun p => phi t p 0 0 := fun t ht => by
    refine ⟨fun p => ?_, ?_⟩
    · fin_cases p
      · show 0 ≤ 1 / 2 - t / 8; linarith [ht.2]
      · show 0 ≤ 1 / 2 + t / 8; linarith [ht.1]
      · exact le_rfl
    · show (1 / 2 - t / 8) + (1 / 2 + t / 8) + 0 = 1; ring
  refine ⟨fun t ht c _ p => ?_, fun t c hc a b _ _ _ _ => Or.inl ⟨c, hc, fun p => rfl⟩, hfrac, by norm_num [FrameOk, share]⟩
  have hrate : rateThree2 .isotropic (.centred 1) 1 0 1 1 (fun _ _ => 1) (w t) (phi t) p c.1 c.2 = (![-(1 / 8), 1 / 8, 0] : Fin 3 → ℝ) p := by
    have h1 : (0 : ℝ) < 1 / 2 - t / 8 := by linarith [ht.2]
    have h2 : (0 : ℝ) < 1 / 2 + t / 8 := by linarith [ht.1]
    have hu : ∀ k, ∀ i j : ℤ, diffTerm2 .isotropic 1 1 1 (phi t k) i j = 0 := fun k i j => diff_uniform _ _ _ _ (phi t k 0 0) _ (fun _ _ => rfl) i j
    rw [rateThree2, frame_uniform _ _ (phi t p 0 0) _ (fun _ => rfl), cellRate3, well_sum _ _ _ _ (by simp [hu]), driving_push,
      push_in ((hfrac t ht).1 p) ((hfrac t ht).1 _) ((hfrac t ht).1 _) ((perm_sum (fun k => phi t k 0 0) p).trans (hfrac t ht).2), hu]
    have e : ∀ x : ℝ, x ≠ 0 → x * (-(1 / 8) / x) = -(1 / 8) := fun x hx => by field_simp
    have e' := e (15 * (1 / 2 - t / 8) ^ 2 * (1 / 2 + t / 8) ^ 2) (by positivity)
    fin_cases p <;> simp [phi, w] <;> first | linear_combination e' | linear_combination -e'
  show HasDerivAt (fun s => phi s p c.1 c.2) (rateThree2 .isotropic (.centred 1) 1 0 1 1 (fun _ _ => 1) (w t) (phi t) p c.1 c.2) t
  rw [hrate]
  fin_cases p
  · exact (((hasDerivAt_id t).div_const 8).const_sub (1 / 2)).congr_deriv (by simp)
  · exact (((hasDerivAt_id t).div_const 8).const_add (1 / 2)).congr_deriv (by simp)
  · exact hasDerivAt_const t 0

end AMPE.ThreeBounds.Props
