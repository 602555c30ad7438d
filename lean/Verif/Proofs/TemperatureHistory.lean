import Verif.Model.TemperatureHistory
import Mathlib.Tactic.Linarith
import Mathlib.Tactic.Ring
import Mathlib.Tactic.FieldSimp
import Mathlib.Tactic.NormNum

/-! Helper lemmas about the temperature-history lookup. -/

namespace AMPE.TemperatureHistory

theorem takeWhile_len_le {α} (p : α → Bool) (l : List α) : (l.takeWhile p).length ≤ l.length := by
  induction l with
  | nil => simp
  | cons a l ih => simp only [List.takeWhile_cons]; split <;> simp [ih]

theorem countWhile_le (keep : ℝ → Prop) [DecidablePred keep] (l : List ℝ) :
    countWhile keep l ≤ l.length := takeWhile_len_le _ _

theorem countWhile_keep (keep : ℝ → Prop) [DecidablePred keep] (l : List ℝ) (i : ℕ)
    (h : i < countWhile keep l) (hl : i < l.length) : keep l[i] := by
  induction l generalizing i with
  | nil => simp at hl
  | cons a l ih =>
    unfold countWhile at h
    simp only [List.takeWhile_cons] at h
    split at h
    · rename_i ha
      cases i with
      | zero => simpa using ha
      | succ i => simpa using ih i (by simpa [countWhile] using h) (by simpa using hl)
    · simp at h

theorem countWhile_stop (keep : ℝ → Prop) [DecidablePred keep] (l : List ℝ)
    (h : countWhile keep l < l.length) : ¬ keep l[countWhile keep l] := by
  induction l with
  | nil => simp at h
  | cons a l ih =>
    by_cases ha : keep a
    · have hc : countWhile keep (a :: l) = countWhile keep l + 1 := by
        simp [countWhile, ha]
      simp only [hc, List.length_cons, Nat.add_lt_add_iff_right] at h
      simpa [hc] using ih h
    · have hc : countWhile keep (a :: l) = 0 := by
        simp [countWhile, ha]
      simpa [hc] using ha

/-- Well-formed table: at least two times and positions (the code asserts this, lines 72-73), both
strictly increasing, rectangular, and fewer than 2^32 entries. -/
structure Table.WF (tb : Table) : Prop where
  nt : 2 ≤ tb.times.length
  nx : 2 ≤ tb.positions.length
  bt : tb.times.length < wrap
  bx : tb.positions.length < wrap
  inct : tb.times.Pairwise (· < ·)
  incx : tb.positions.Pairwise (· < ·)
  rows : tb.temps.length = tb.times.length
  cols : ∀ r ∈ tb.temps, r.length = tb.positions.length

theorem inc_small {i : ℕ} (h : i + 1 < wrap) : inc i = i + 1 := Nat.mod_eq_of_lt h

theorem getElem?_lt {l : List ℝ} (h : l.Pairwise (· < ·)) {i j : ℕ} (hij : i < j) (hj : j < l.length) :
    l[i]'(by omega) < l[j] := List.pairwise_iff_getElem.mp h i j (by omega) hj hij

/-- Table entry of a well-formed table. -/
theorem temp_some {tb : Table} (w : tb.WF) {i j : ℕ} (hi : i < tb.times.length)
    (hj : j < tb.positions.length) : ∃ v, tb.temp i j = some v := by
  have hi' : i < tb.temps.length := by rw [w.rows]; exact hi
  have hc := w.cols tb.temps[i] (List.getElem_mem _)
  refine ⟨(tb.temps[i])[j]'(by omega), ?_⟩
  simp [Table.temp, List.getElem?_eq_getElem hi', List.getElem?_eq_getElem (show j < (tb.temps[i]).length by omega)]

/-- The counting loop in the time direction. -/
theorem time_index {tb : Table} (w : tb.WF) {t : ℝ} (h0 : tb.times[0]'(by have := w.nt; omega) ≤ t)
    (h1 : t < tb.times[tb.times.length - 1]'(by have := w.nt; omega)) :
    ∃ i, ∃ hi : i + 1 < tb.times.length, dec (countWhile (fun x => x ≤ t) tb.times) = i ∧
      tb.times[i] ≤ t ∧ t < tb.times[i + 1] := by
  have hnt := w.nt
  set c := countWhile (fun x => x ≤ t) tb.times with hc
  have hcpos : 0 < c := by
    by_contra h
    have hz : c = 0 := by omega
    have := countWhile_stop (fun x => x ≤ t) tb.times (by rw [← hc, hz]; omega)
    simp only [← hc, hz] at this
    exact this h0
  have hclt : c < tb.times.length := by
    by_contra h
    have := countWhile_keep (fun x => x ≤ t) tb.times (tb.times.length - 1) (by rw [← hc]; omega) (by omega)
    linarith
  refine ⟨c - 1, by omega, by simp [dec, hcpos.ne'], ?_, ?_⟩
  · exact countWhile_keep (fun x => x ≤ t) tb.times (c - 1) (by rw [← hc]; omega) (by omega)
  · have := countWhile_stop (fun x => x ≤ t) tb.times (by rw [← hc]; exact hclt)
    simp only [← hc, not_le] at this
    have he : c - 1 + 1 = c := by omega
    simpa [he] using this

/-- The counting loop in the space direction. -/
theorem pos_index {tb : Table} (w : tb.WF) {x : ℝ} (h0 : tb.positions[0]'(by have := w.nx; omega) < x)
    (h1 : x ≤ tb.positions[tb.positions.length - 1]'(by have := w.nx; omega)) :
    ∃ j, ∃ hj : j + 1 < tb.positions.length, dec (countWhile (fun y => y < x) tb.positions) = j ∧
      tb.positions[j] < x ∧ x ≤ tb.positions[j + 1] := by
  have hnt := w.nx
  set c := countWhile (fun y => y < x) tb.positions with hc
  have hcpos : 0 < c := by
    by_contra h
    have hz : c = 0 := by omega
    have := countWhile_stop (fun y => y < x) tb.positions (by rw [← hc, hz]; omega)
    simp only [← hc, hz] at this
    exact this h0
  have hclt : c < tb.positions.length := by
    by_contra h
    have := countWhile_keep (fun y => y < x) tb.positions (tb.positions.length - 1) (by rw [← hc]; omega) (by omega)
    linarith
  refine ⟨c - 1, by omega, by simp [dec, hcpos.ne'], ?_, ?_⟩
  · exact countWhile_keep (fun y => y < x) tb.positions (c - 1) (by rw [← hc]; omega) (by omega)
  · have := countWhile_stop (fun y => y < x) tb.positions (by rw [← hc]; exact hclt)
    simp only [← hc, not_lt] at this
    have he : c - 1 + 1 = c := by omega
    simpa [he] using this

/-- The value returned by the interpolation, once the cell is known. -/
theorem interpolate_value {tb : Table} (w : tb.WF) {i j : ℕ} (hi : i + 1 < tb.times.length)
    (hj : j + 1 < tb.positions.length) {a b c d : ℝ} (ha : tb.temp i j = some a)
    (hb : tb.temp i (j + 1) = some b) (hc : tb.temp (i + 1) j = some c)
    (hd : tb.temp (i + 1) (j + 1) = some d) (t x : ℝ) :
    ∃ g, interpolate tb t x i j = some (
      (1 - (t - tb.times[i]) / (tb.times[i + 1] - tb.times[i])) *
        ((1 - (x - tb.positions[j]) / (tb.positions[j + 1] - tb.positions[j])) * a +
          (x - tb.positions[j]) / (tb.positions[j + 1] - tb.positions[j]) * b) +
      (t - tb.times[i]) / (tb.times[i + 1] - tb.times[i]) *
        ((1 - (x - tb.positions[j]) / (tb.positions[j + 1] - tb.positions[j])) * c +
          (x - tb.positions[j]) / (tb.positions[j + 1] - tb.positions[j]) * d), g) := by
  have hbt := w.bt
  have hbx := w.bx
  have e1 : inc i = i + 1 := inc_small (by omega)
  have e2 : inc j = j + 1 := inc_small (by omega)
  have e3 : inc (j + 1) = j + 1 + 1 := inc_small (by omega)
  simp only [interpolate, e1, e2, e3, List.getElem?_eq_getElem (show i < tb.times.length by omega),
    List.getElem?_eq_getElem hi, List.getElem?_eq_getElem (show j < tb.positions.length by omega),
    List.getElem?_eq_getElem hj, ha, hb, hc, hd, Option.bind_eq_bind, Option.bind_some]
  split
  · obtain ⟨v1, h1⟩ := temp_some w (i := i) (j := j - 1) (by omega) (by omega)
    obtain ⟨v2, h2⟩ := temp_some w (i := i + 1) (j := j - 1) (by omega) (by omega)
    simp only [List.getElem?_eq_getElem (show j - 1 < tb.positions.length by omega), h1, h2,
      Option.bind_some]
    exact ⟨_, rfl⟩
  · split
    · rename_i hlt
      obtain ⟨v1, h1⟩ := temp_some w (i := i) (j := j + 1 + 1) (by omega) hlt.1
      obtain ⟨v2, h2⟩ := temp_some w (i := i + 1) (j := j + 1 + 1) (by omega) hlt.1
      simp only [List.getElem?_eq_getElem hlt.1, h1, h2, Option.bind_some]
      exact ⟨_, rfl⟩
    · exact ⟨_, rfl⟩

/-- The gradient for data affine in position with one common slope. -/
theorem interpolate_grad {tb : Table} (w : tb.WF) {i j : ℕ} (hi : i + 1 < tb.times.length)
    (hj : j + 1 < tb.positions.length) (off : ℕ → ℝ) (g : ℝ)
    (haff : ∀ k l (hl : l < tb.positions.length), k < tb.times.length →
      tb.temp k l = some (off k + g * tb.positions[l])) (t x : ℝ) :
    ∃ v, interpolate tb t x i j = some (v, g) := by
  have hbt := w.bt
  have hbx := w.bx
  have e1 : inc i = i + 1 := inc_small (by omega)
  have e2 : inc j = j + 1 := inc_small (by omega)
  have e3 : inc (j + 1) = j + 1 + 1 := inc_small (by omega)
  have hx := getElem?_lt w.incx (Nat.lt_succ_self j) hj
  have hne : tb.positions[j + 1] - tb.positions[j] ≠ 0 := by linarith
  have hgen : ∀ (o p q : ℝ), q - p ≠ 0 → (o + g * q - (o + g * p)) / (q - p) = g := by
    intro o p q h; field_simp; ring
  simp only [interpolate, e1, e2, e3, List.getElem?_eq_getElem (show i < tb.times.length by omega),
    List.getElem?_eq_getElem hi, List.getElem?_eq_getElem (show j < tb.positions.length by omega),
    List.getElem?_eq_getElem hj, haff i j (by omega) (by omega), haff i (j + 1) hj (by omega),
    haff (i + 1) j (by omega) hi, haff (i + 1) (j + 1) hj hi, Option.bind_eq_bind, Option.bind_some,
    hgen _ _ _ hne]
  split
  · rename_i h0
    have hx2 := getElem?_lt w.incx (show j - 1 < j by omega) (show j < tb.positions.length by omega)
    have hne2 : tb.positions[j] - tb.positions[j - 1] ≠ 0 := by linarith
    simp only [List.getElem?_eq_getElem (show j - 1 < tb.positions.length by omega),
      haff i (j - 1) (by omega) (by omega), haff (i + 1) (j - 1) (by omega) hi, Option.bind_some,
      hgen _ _ _ hne2]
    exact ⟨_, congrArg some (Prod.ext rfl (by ring))⟩
  · split
    · rename_i hlt
      have hx2 := getElem?_lt w.incx (show j + 1 < j + 1 + 1 by omega) hlt.1
      have hne2 : tb.positions[j + 1 + 1] - tb.positions[j + 1] ≠ 0 := by linarith
      simp only [List.getElem?_eq_getElem hlt.1,
        haff i (j + 1 + 1) hlt.1 (by omega), haff (i + 1) (j + 1 + 1) hlt.1 hi, Option.bind_some,
        hgen _ _ _ hne2]
      exact ⟨_, congrArg some (Prod.ext rfl (by ring))⟩
    · exact ⟨_, congrArg some (Prod.ext rfl (by ring))⟩

/-- Reduction of the lookup to `interpolate` for a query inside the table. -/
theorem lookup_inside {tb : Table} (w : tb.WF) {t x : ℝ}
    (ht0 : tb.times[0]'(by have := w.nt; omega) ≤ t)
    (ht1 : t < tb.times[tb.times.length - 1]'(by have := w.nt; omega))
    (hx0 : tb.positions[0]'(by have := w.nx; omega) < x)
    (hx1 : x ≤ tb.positions[tb.positions.length - 1]'(by have := w.nx; omega)) :
    ∃ i j, ∃ hi : i + 1 < tb.times.length, ∃ hj : j + 1 < tb.positions.length,
      (tb.times[i] ≤ t ∧ t < tb.times[i + 1]) ∧ (tb.positions[j] < x ∧ x ≤ tb.positions[j + 1]) ∧
      getTandGradT tb t x = Outcome.ofRead (interpolate tb t x i j) := by
  obtain ⟨i, hi, ei, hi2⟩ := time_index w ht0 ht1
  obtain ⟨j, hj, ej, hj2⟩ := pos_index w hx0 hx1
  refine ⟨i, j, hi, hj, hi2, hj2, ?_⟩
  have hnt := w.nt
  have hnx := w.nx
  have hbt := w.bt
  have hbx := w.bx
  have e1 : inc i = i + 1 := inc_small (by omega)
  have e2 : inc j = j + 1 := inc_small (by omega)
  have g1 : ¬ tb.times.length ≤ i + 1 := by omega
  have g2 : ¬ tb.positions.length ≤ j + 1 := by omega
  simp only [getTandGradT, List.getElem?_eq_getElem (show 0 < tb.times.length by omega),
    List.getElem?_eq_getElem (show 0 < tb.positions.length by omega), ei, ej, e1, e2, g1, g2,
    not_lt.mpr ht0, not_lt.mpr hx0.le, if_false]

theorem count_all {tb : Table} (w : tb.WF) {t : ℝ}
    (h1 : tb.times[tb.times.length - 1]'(by have := w.nt; omega) ≤ t) :
    countWhile (fun x => x ≤ t) tb.times = tb.times.length := by
  have hnt := w.nt
  by_contra h
  have hlt : countWhile (fun x => x ≤ t) tb.times < tb.times.length :=
    lt_of_le_of_ne (countWhile_le _ _) h
  have hs := countWhile_stop (fun x => x ≤ t) tb.times hlt
  apply hs
  rcases Nat.lt_or_ge (countWhile (fun x => x ≤ t) tb.times) (tb.times.length - 1) with hc | hc
  · exact (getElem?_lt w.inct hc (by omega)).le.trans h1
  · have : countWhile (fun x => x ≤ t) tb.times = tb.times.length - 1 := by omega
    simpa [this] using h1

theorem count_all_pos {tb : Table} (w : tb.WF) {x : ℝ}
    (h1 : tb.positions[tb.positions.length - 1]'(by have := w.nx; omega) < x) :
    countWhile (fun y => y < x) tb.positions = tb.positions.length := by
  have hnx := w.nx
  by_contra h
  have hlt : countWhile (fun y => y < x) tb.positions < tb.positions.length :=
    lt_of_le_of_ne (countWhile_le _ _) h
  have hs := countWhile_stop (fun y => y < x) tb.positions hlt
  apply hs
  rcases Nat.lt_or_ge (countWhile (fun y => y < x) tb.positions) (tb.positions.length - 1) with hc | hc
  · exact (getElem?_lt w.incx hc (by omega)).trans h1
  · have : countWhile (fun y => y < x) tb.positions = tb.positions.length - 1 := by omega
    simpa [this] using h1

/-- Convex combination bounds. -/
theorem bilinear_bounds {a b c d p q lo hi : ℝ} (hp : 0 ≤ p ∧ p ≤ 1) (hq : 0 ≤ q ∧ q ≤ 1)
    (ha : lo ≤ a ∧ a ≤ hi) (hb : lo ≤ b ∧ b ≤ hi) (hc : lo ≤ c ∧ c ≤ hi) (hd : lo ≤ d ∧ d ≤ hi) :
    lo ≤ (1 - p) * ((1 - q) * a + q * b) + p * ((1 - q) * c + q * d) ∧
    (1 - p) * ((1 - q) * a + q * b) + p * ((1 - q) * c + q * d) ≤ hi := by
  have h1 : lo ≤ (1 - q) * a + q * b := by nlinarith [hq.1, hq.2, ha.1, hb.1]
  have h2 : (1 - q) * a + q * b ≤ hi := by nlinarith [hq.1, hq.2, ha.2, hb.2]
  have h3 : lo ≤ (1 - q) * c + q * d := by nlinarith [hq.1, hq.2, hc.1, hd.1]
  have h4 : (1 - q) * c + q * d ≤ hi := by nlinarith [hq.1, hq.2, hc.2, hd.2]
  constructor <;> nlinarith [hp.1, hp.2]

end AMPE.TemperatureHistory
