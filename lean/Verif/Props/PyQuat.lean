import Verif.Model.PyQuat
import Verif.Props.QuatBound

/-!
# C145: the preparatory programs and the simulation agree on orientations
-/

namespace AMPE.PyQuat.Props

open AMPE.Quat AMPE.Quat.Props

/-! ## The arithmetic -/

theorem mult4_same (a b : Q4) : mult4 a b = quatmult4 a b := rfl

theorem mult2_same (a b : Q2) : mult2 a b = quatmult2 a b := rfl

theorem magnitude4_same (q : Q4) : magnitude4 q = quatmagn4 q := by simp only [magnitude4, quatmagn4, zero_add]

theorem magnitude2_same (q : Q2) : magnitude2 q = quatmagn2 q := by simp only [magnitude2, quatmagn2, zero_add]

theorem tiny_same : (1.e-15 : ℝ) = tiny := by unfold tiny; norm_num

theorem normalize4_same {q : Q4} (h : tiny ≤ quatmagn4 q) : normalize4 q = quatnorm4 q := by
  have hn : ¬ quatmagn4 q < tiny := not_lt.2 h
  unfold normalize4 quatnorm4 quatmaginv4
  rw [magnitude4_same, tiny_same, if_neg hn, if_neg hn]
  ext <;> simp only <;> ring

theorem normalize2_same {q : Q2} (h : tiny ≤ quatmagn2 q) : normalize2 q = quatnorm2 q := by
  have hn : ¬ quatmagn2 q < tiny := not_lt.2 h
  unfold normalize2 quatnorm2 quatmaginv2
  rw [magnitude2_same, tiny_same, if_neg hn, if_neg hn]
  ext <;> simp only <;> ring

theorem tiny_le_one : tiny ≤ 1 := by unfold tiny; norm_num

theorem table_same : table4 = rawqr4 := by decide

theorem rot4_same {n : ℕ} (h : n < 48) : rot4 n = qr4 ((n : ℤ) + 1) := by
  have e : ((n : ℤ) + 1 - 1).toNat = n := by omega
  unfold rot4 qr4
  simp only [e, table_same]
  apply normalize4_same
  have hl : n < rawqr4.length := by rw [raw_length]; exact h
  have hv : rawqr4.getD n (0, 0, 0, 0) ∈ rawqr4 := by
    rw [List.getD_eq_getElem?_getD, List.getElem?_eq_getElem hl, Option.getD_some]; exact List.getElem_mem _
  have na : (1 : ℝ) ≤ quatmagsq4 (ofInt (rawqr4.getD n (0, 0, 0, 0))) := by rw [magsq_ofInt]; exact_mod_cast raw_norm _ hv
  exact tiny_le_one.trans (by rw [magn4_eq]; exact Real.one_le_sqrt.mpr na)

theorem rot2_same {n : ℕ} (h : n < 4) : rot2 n = Quat.qr2 ((n : ℤ) + 1) := by
  have e : ((n : ℤ) + 1 - 1).toNat = n := by omega
  unfold rot2 Quat.qr2
  simp only [e, rawqr2]
  apply normalize2_same
  refine tiny_le_one.trans ?_
  have : n = 0 ∨ n = 1 ∨ n = 2 ∨ n = 3 := by omega
  rcases this with rfl | rfl | rfl | rfl <;> simp [quatmagn2]

theorem rot1_same {n : ℕ} (h : n < 9) : rot1 n = Quat.qr1 ((n : ℤ) + 1) := by
  have e : ((n : ℤ) + 1 - 1).toNat = n := by omega
  unfold rot1 Quat.qr1
  simp only [e, rawqr1]
  have : n = 0 ∨ n = 1 ∨ n = 2 ∨ n = 3 ∨ n = 4 ∨ n = 5 ∨ n = 6 ∨ n = 7 ∨ n = 8 := by omega
  rcases this with rfl | rfl | rfl | rfl | rfl | rfl | rfl | rfl | rfl <;> simp <;> ring

/-- **C145**: a rotation of the table with an index that is not negative is the one of the simulation, whose indices start at one. -/
theorem c145_table (n : ℕ) : symmetryRotation n = if n < 48 then some (qr4 ((n : ℤ) + 1)) else none := by
  unfold symmetryRotation
  by_cases h : n < 48
  · rw [if_pos h, if_pos h, rot4_same h]
  · rw [if_neg h, if_neg h]

/-! ## Conjugates -/

theorem conj_check : ∀ n ∈ List.range 48, n ≠ 40 → (PyQuat.conj4.getD n 0 : ℤ) + 1 = Quat.conj4.getD n 0 := by decide

theorem conj_length : PyQuat.conj4.length = 48 := by decide

theorem conj_lt : ∀ n ∈ List.range 48, PyQuat.conj4.getD n 0 < 48 := by decide

/-- **C145**: the conjugate of a rotation undoes it, but for the one of index 40. -/
theorem c145_conjugate_partial (n : ℕ) (h : n < 48) (hne : n ≠ 40) (r c : Q4) (hr : symmetryRotation n = some r)
    (hc : symmetryRotationConjugate n = some c) : mult4 r c = ⟨1, 0, 0, 0⟩ ∧ mult4 c r = ⟨1, 0, 0, 0⟩ := by
  have hl : n < PyQuat.conj4.length := by rw [conj_length]; exact h
  have hget : PyQuat.conj4[n]? = some (PyQuat.conj4.getD n 0) := by
    rw [List.getD_eq_getElem?_getD, List.getElem?_eq_getElem hl]; rfl
  have hlt := conj_lt n (List.mem_range.2 h)
  unfold symmetryRotationConjugate at hc
  rw [hget, Option.bind_some, c145_table, if_pos hlt, conj_check n (List.mem_range.2 h) hne] at hc
  rw [c145_table, if_pos h] at hr
  have e : ((n : ℤ) + 1 - 1).toNat = n := by omega
  have := conj4_spec (i := (n : ℤ) + 1) (by omega) (by omega)
  rw [e] at this
  rw [← Option.some.inj hr, ← Option.some.inj hc]
  exact this.2

/-- **C145, violation**: the conjugate given for rotation 40 (a third of a turn) does not undo it, in either sense of the sign. -/
theorem c145_violation_conjugate : ∃ r c, symmetryRotation 40 = some r ∧ symmetryRotationConjugate 40 = some c ∧
    (mult4 r c).q1 = -1 / 2 ∧ mult4 r c ≠ ⟨1, 0, 0, 0⟩ ∧ mult4 r c ≠ ⟨-1, 0, 0, 0⟩ := by
  have norm : ∀ a b c d : ℝ, a * a = 1 → b * b = 1 → c * c = 1 → d * d = 1 → normalize4 ⟨a, b, c, d⟩ = ⟨a / 2, b / 2, c / 2, d / 2⟩ := by
    intro a b c d ha hb hc hd
    have hm : magnitude4 ⟨a, b, c, d⟩ = 2 := by
      simp only [magnitude4]; rw [ha, hb, hc, hd, show (0 + 1 + 1 + 1 + 1 : ℝ) = 2 ^ 2 by norm_num, Real.sqrt_sq (by norm_num)]
    unfold normalize4
    rw [hm, if_neg (by norm_num)]
  have e1 : rot4 40 = ⟨1 / 2, -1 / 2, -1 / 2, 1 / 2⟩ := by
    have : rot4 40 = normalize4 ⟨1, -1, -1, 1⟩ := by simp [rot4, table4]
    rw [this, norm _ _ _ _ (by norm_num) (by norm_num) (by norm_num) (by norm_num)]
  have e2 : rot4 38 = ⟨-1 / 2, 1 / 2, -1 / 2, 1 / 2⟩ := by
    have : rot4 38 = normalize4 ⟨-1, 1, -1, 1⟩ := by simp [rot4, table4]
    rw [this, norm _ _ _ _ (by norm_num) (by norm_num) (by norm_num) (by norm_num)]
  have e3 : (mult4 (rot4 40) (rot4 38)).q1 = -1 / 2 := by rw [e1, e2]; simp only [mult4]; norm_num
  refine ⟨rot4 40, rot4 38, by simp [symmetryRotation], by simp [symmetryRotationConjugate, PyQuat.conj4, symmetryRotation], e3, ?_, ?_⟩
  · intro h; rw [h] at e3; norm_num at e3
  · intro h; rw [h] at e3; norm_num at e3

/-! ## The search -/

section search

variable {α : Type} {cand' : ℕ → ℝ × α} {cand : ℤ → α × ℝ} {crit thr : ℝ} {φ : ℝ → ℝ} {N : ℕ}

theorem loop_same (hc : ∀ n < N, cand' n = (φ (cand (n + 1)).2, (cand (n + 1)).1)) (hpos : ∀ n : ℤ, 0 ≤ (cand n).2)
    (hφ : ∀ x y, 0 ≤ x → 0 ≤ y → (φ x < φ y ↔ x < y)) (ht : ∀ x, 0 ≤ x → (φ x ≤ crit ↔ x ≤ thr)) (i : ℕ) (l : List ℕ) (hl : ∀ n ∈ l, n < N)
    (k : ℤ) (q : α) (d : ℝ) (hd : 0 ≤ d) :
    loop cand' crit i l (φ d, q) = (searchLoop cand thr ((i : ℤ) + 1) (l.map fun k : ℕ => (k : ℤ) + 1) (k, q, d)).2.1 := by
  induction l generalizing k q d with
  | nil => rfl
  | cons n l ih =>
    have hl' : ∀ m ∈ l, m < N := fun m hm => hl m (List.mem_cons_of_mem _ hm)
    have hn : n < N := hl n List.mem_cons_self
    simp only [loop, List.map_cons, searchLoop]
    by_cases hi : n = i
    · rw [if_pos hi, if_pos (by rw [hi])]
      exact ih hl' k q d hd
    · have hni : ¬ ((n : ℤ) + 1 = (i : ℤ) + 1) := by omega
      rw [if_neg hi, if_neg hni, hc n hn]
      simp only
      by_cases hlt : (cand ((n : ℤ) + 1)).2 < d
      · rw [if_pos hlt, if_pos ((hφ _ _ (hpos _) hd).2 hlt)]
        by_cases hth : (cand ((n : ℤ) + 1)).2 ≤ thr
        · rw [if_pos hth, if_pos ((ht _ (hpos _)).2 hth)]
        · rw [if_neg hth, if_neg (fun h => hth ((ht _ (hpos _)).1 h))]
          exact ih hl' _ _ _ (hpos _)
      · rw [if_neg hlt, if_neg (fun h => hlt ((hφ _ _ (hpos _) hd).1 h))]
        by_cases hth : (cand ((n : ℤ) + 1)).2 ≤ thr
        · rw [if_pos hth, if_pos ((ht _ (hpos _)).2 hth)]
        · rw [if_neg hth, if_neg (fun h => hth ((ht _ (hpos _)).1 h))]
          exact ih hl' _ _ _ hd

theorem startIndex_pos (N : ℕ) (conj : List ℤ) (i : ℕ) (h : i < N) : startIndex N conj ((i : ℤ) + 1) = i + 1 := by
  unfold startIndex
  have h1 : ¬ ((i : ℤ) + 1 = 0 ∨ (i : ℤ) + 1 > N ∨ (i : ℤ) + 1 < -N) := by omega
  have h2 : ¬ ((i : ℤ) + 1 < 0) := by omega
  simp only [if_neg h1, if_neg h2]

theorem symm_same (hc : ∀ n < N, cand' n = (φ (cand (n + 1)).2, (cand (n + 1)).1)) (hpos : ∀ n : ℤ, 0 ≤ (cand n).2)
    (hφ : ∀ x y, 0 ≤ x → 0 ≤ y → (φ x < φ y ↔ x < y)) (ht : ∀ x, 0 ≤ x → (φ x ≤ crit ↔ x ≤ thr)) (conj : List ℕ) (conjF : List ℤ)
    (iq : ℤ) (i : ℕ) (hs : start N conj iq = some i) (hi : i < N) :
    symm cand' crit N conj iq = some (search cand thr N conjF ((i : ℤ) + 1)).1 := by
  unfold symm search
  rw [hs, startIndex_pos N conjF i hi]
  simp only
  rw [if_neg (by omega), hc i hi]
  simp only
  by_cases hth : (cand ((i : ℤ) + 1)).2 ≤ thr
  · rw [if_pos hth, if_pos ((ht _ (hpos _)).2 hth)]
  · rw [if_neg hth, if_neg (fun h => hth ((ht _ (hpos _)).1 h)),
      loop_same hc hpos hφ ht i _ (fun n hn => List.mem_range.1 hn) ((i : ℤ) + 1) _ _ (hpos _)]

end search

theorem sqrt_order (x y : ℝ) (hx : 0 ≤ x) (_ : 0 ≤ y) : Real.sqrt x < Real.sqrt y ↔ x < y := Real.sqrt_lt_sqrt_iff hx

theorem sqrt_crit {c : ℝ} (hc : 0 ≤ c) (x : ℝ) (_ : 0 ≤ x) : Real.sqrt x ≤ c ↔ x ≤ c * c := by
  rw [Real.sqrt_le_left hc, sq]

theorem cand4_same (q1 q2 : Q4) (h1 : tiny ≤ quatmagn4 q1) (h2 : tiny ≤ quatmagn4 q2) (n : ℕ) (h : n < 48) :
    diff4 q1 q2 (rot4 n) = (Real.sqrt (cand4 q1 q2 ((n : ℤ) + 1)).2, (cand4 q1 q2 ((n : ℤ) + 1)).1) := by
  have e : cand4 q1 q2 ((n : ℤ) + 1) = (quatmult4 q2 (qr4 ((n : ℤ) + 1)), quatdiffsq4 q1 (quatmult4 q2 (qr4 ((n : ℤ) + 1)))) := by
    unfold cand4
    split_ifs with h0
    · rw [h0, qr4_one, mult4_one]
    · rfl
  have hm : quatmagn4 (quatmult4 q2 (qr4 ((n : ℤ) + 1))) = quatmagn4 q2 := by
    rw [magn4_eq, magn4_eq, magsq4_mult, qr4_unit (by omega) (by omega), mul_one]
  rw [e]
  unfold diff4 rotate4
  rw [mult4_same, rot4_same h]
  simp only
  rw [normalize4_same h1, normalize4_same (by rw [hm]; exact h2), magnitude4_same]
  rfl

theorem cand2_same (q1 q2 : Q2) (h1 : tiny ≤ quatmagn2 q1) (h2 : tiny ≤ quatmagn2 q2) (n : ℕ) (h : n < 4) :
    diff2 q1 q2 (rot2 n) = (Real.sqrt (cand2 q1 q2 ((n : ℤ) + 1)).2, (cand2 q1 q2 ((n : ℤ) + 1)).1) := by
  have e : cand2 q1 q2 ((n : ℤ) + 1) = (quatmult2 q2 (Quat.qr2 ((n : ℤ) + 1)), quatdiffsq2 q1 (quatmult2 q2 (Quat.qr2 ((n : ℤ) + 1)))) := by
    unfold cand2
    split_ifs with h0
    · rw [h0, qr2_val.1, mult2_one]
    · rfl
  have hm : quatmagn2 (quatmult2 q2 (Quat.qr2 ((n : ℤ) + 1))) = quatmagn2 q2 := by
    rw [magn2_eq, magn2_eq, magsq2_mult, Quat.Props.qr2_unit (by omega) (by omega), mul_one]
  rw [e]
  unfold diff2 rotate2
  rw [mult2_same, rot2_same h]
  simp only
  rw [normalize2_same h1, normalize2_same (by rw [hm]; exact h2), magnitude2_same]
  rfl

theorem cand1_same (q1 q2 : ℝ) (n : ℕ) (h : n < 9) :
    diff1 q1 q2 (rot1 n) = (id (cand1 q1 q2 ((n : ℤ) + 1)).2, (cand1 q1 q2 ((n : ℤ) + 1)).1) := by
  unfold cand1 diff1
  rw [rot1_same h]
  split_ifs with h0
  · rw [h0]; simp [Quat.qr1, rawqr1]
  · rfl

theorem magsq2_nonneg' (q : Q2) : 0 ≤ quatmagsq2 q := magsq2_nonneg q

theorem cand4_pos (q1 q2 : Q4) (n : ℤ) : 0 ≤ (cand4 q1 q2 n).2 := by
  unfold cand4; split_ifs <;> exact magsq4_nonneg _

theorem cand2_pos (q1 q2 : Q2) (n : ℤ) : 0 ≤ (cand2 q1 q2 n).2 := by
  unfold cand2; split_ifs <;> exact magsq2_nonneg _

theorem cand1_pos (q1 q2 : ℝ) (n : ℤ) : 0 ≤ (cand1 q1 q2 n).2 := by
  unfold cand1; split_ifs <;> exact abs_nonneg _

/-- Where the search starts. -/
theorem start_eq (N : ℕ) (conj : List ℕ) (hl : conj.length = N) (iq : ℤ) : start N conj iq =
    if iq = -N ∧ 0 < N then none else if iq < 0 ∧ -N < iq then some (conj.getD (-iq).toNat 0) else if 0 ≤ iq ∧ iq ≤ N then some iq.toNat else some 0 := by
  unfold start
  by_cases h0 : iq > N ∨ iq < -N
  · rw [if_pos h0]
    simp only [lt_irrefl, if_false, Int.toNat_zero]
    rw [if_neg (by omega), if_neg (by omega), if_neg (by omega)]
  · rw [if_neg h0]
    simp only
    by_cases hneg : iq < 0
    · rw [if_pos hneg]
      by_cases he : iq = -N
      · rw [if_pos ⟨he, by omega⟩]
        exact List.getElem?_eq_none (by omega)
      · rw [if_neg (by tauto), if_pos ⟨hneg, by omega⟩]
        have hlt : (-iq).toNat < conj.length := by omega
        rw [List.getD_eq_getElem?_getD, List.getElem?_eq_getElem hlt]; rfl
    · rw [if_neg hneg, if_neg (by omega), if_neg (by omega), if_pos (by omega)]

theorem conj4_lt (n : ℕ) : PyQuat.conj4.getD n 0 < 48 := by
  by_cases h : n < 48
  · exact conj_lt n (List.mem_range.2 h)
  · rw [List.getD_eq_getElem?_getD, List.getElem?_eq_none (by rw [conj_length]; omega)]; norm_num

theorem conj2_lt (n : ℕ) : PyQuat.conj2.getD n 0 < 4 := by
  by_cases h : n < 4
  · have : ∀ n ∈ List.range 4, PyQuat.conj2.getD n 0 < 4 := by decide
    exact this n (List.mem_range.2 h)
  · rw [List.getD_eq_getElem?_getD, List.getElem?_eq_none (by simp [PyQuat.conj2]; omega)]; norm_num

theorem conj1_lt (n : ℕ) : PyQuat.conj1.getD n 0 < 9 := by
  by_cases h : n < 9
  · have : ∀ n ∈ List.range 9, PyQuat.conj1.getD n 0 < 9 := by decide
    exact this n (List.mem_range.2 h)
  · rw [List.getD_eq_getElem?_getD, List.getElem?_eq_none (by simp [PyQuat.conj1]; omega)]; norm_num

/-- A start index other than plus or minus the number of rotations leads to an index of the table. -/
theorem start_ok (N : ℕ) (hN : 0 < N) (conj : List ℕ) (hl : conj.length = N) (hlt : ∀ n, conj.getD n 0 < N) (iq : ℤ) (h1 : iq ≠ N) (h2 : iq ≠ -N) :
    ∃ i, start N conj iq = some i ∧ i < N := by
  rw [start_eq N conj hl]
  rw [if_neg (by tauto)]
  split_ifs with h h'
  · exact ⟨_, rfl, hlt _⟩
  · exact ⟨_, rfl, by omega⟩
  · exact ⟨_, rfl, hN⟩

/-- **C145, violation**: a start index equal to the number of rotations or its negative, which the test lets through, stops the script; no
other does. -/
theorem c145_violation_index (q1 q2 : Q4) (p1 p2 : Q2) (a1 a2 : ℝ) (iq : ℤ) :
    (quatSymm4 q1 q2 iq = none ↔ iq = 48 ∨ iq = -48) ∧ (quatSymm2 p1 p2 iq = none ↔ iq = 4 ∨ iq = -4) ∧
    (quatSymm1 a1 a2 iq = .exception ↔ iq = 9 ∨ iq = -9) := by
  have gen : ∀ {α : Type} (cand : ℕ → ℝ × α) (crit : ℝ) (N : ℕ) (conj : List ℕ), 0 < N → conj.length = N → (∀ n, conj.getD n 0 < N) →
      (symm cand crit N conj iq = none ↔ iq = N ∨ iq = -N) := by
    intro α cand crit N conj hN hl hlt
    constructor
    · intro h
      by_contra hh
      push Not at hh
      obtain ⟨i, hi, hi'⟩ := start_ok N hN conj hl hlt iq hh.1 hh.2
      unfold symm at h
      rw [hi] at h
      simp only at h
      rw [if_neg (by omega)] at h
      split_ifs at h
    · rintro (h | h)
      · unfold symm
        rw [start_eq N conj hl, if_neg (by omega), if_neg (by omega), if_pos (by omega)]
        simp only
        rw [if_pos (by omega)]
      · unfold symm
        rw [start_eq N conj hl, if_pos ⟨h, hN⟩]
  refine ⟨gen _ _ 48 _ (by norm_num) conj_length conj4_lt, gen _ _ 4 _ (by norm_num) rfl conj2_lt, ?_⟩
  constructor
  · intro h
    by_contra hh
    push Not at hh
    obtain ⟨i, hi, hi'⟩ := start_ok 9 (by norm_num) PyQuat.conj1 rfl conj1_lt iq hh.1 hh.2
    unfold quatSymm1 at h
    rw [hi] at h
    simp only at h
    rw [if_neg (by omega)] at h
    split_ifs at h
  · rintro (h | h)
    · unfold quatSymm1
      rw [start_eq 9 PyQuat.conj1 rfl, if_neg (by omega), if_neg (by omega), if_pos (by omega)]
      simp only
      rw [if_pos (by omega)]
    · unfold quatSymm1
      rw [start_eq 9 PyQuat.conj1 rfl, if_pos ⟨by exact_mod_cast h, by norm_num⟩]

/-- **C145**: for orientations that are not numerically zero, the search of the scripts gives what the search of the simulation gives, from
the same start: index zero for indices out of range, the conjugate for negative ones. -/
theorem c145_search4_partial (q1 q2 : Q4) (h1 : tiny ≤ quatmagn4 q1) (h2 : tiny ≤ quatmagn4 q2) (iq : ℤ) (hi : iq ≠ 48) (hi' : iq ≠ -48)
    (h40 : iq ≠ -40) : quatSymm4 q1 q2 iq = some (quatfindsymm4 q1 q2 (if iq < 0 then iq - 1 else iq + 1)).1 := by
  obtain ⟨i, hs, hlt⟩ := start_ok 48 (by norm_num) PyQuat.conj4 conj_length conj4_lt iq hi hi'
  have key := symm_same (φ := Real.sqrt) (crit := 2 * Real.sin (Real.pi * 0.0625)) (thr := thr4) (fun n hn => cand4_same q1 q2 h1 h2 n hn)
    (cand4_pos q1 q2) sqrt_order (fun x hx => by
      have e : thr4 = 2 * Real.sin (Real.pi * 0.0625) * (2 * Real.sin (Real.pi * 0.0625)) := by
        unfold thr4; rw [show Real.pi * 0.0625 = Real.pi / 16 by ring]
      rw [e]
      refine sqrt_crit ?_ x hx
      have := Real.sin_nonneg_of_nonneg_of_le_pi (x := Real.pi * 0.0625) (by positivity) (by linarith [Real.pi_pos])
      linarith) PyQuat.conj4 Quat.conj4 iq i hs hlt
  unfold quatSymm4 quatfindsymm4
  rw [key]
  have est : ((i : ℤ) + 1) = startIndex 48 Quat.conj4 (if iq < 0 then iq - 1 else iq + 1) := by
    rw [start_eq 48 _ conj_length, if_neg (by omega)] at hs
    unfold startIndex
    by_cases hneg : iq < 0
    · rw [if_pos hneg]
      by_cases hr : (-48 : ℤ) < iq
      · rw [if_pos ⟨hneg, by exact_mod_cast hr⟩] at hs
        have g1 : ¬ (iq - 1 = 0 ∨ iq - 1 > 48 ∨ iq - 1 < -48) := by omega
        have g2 : iq - 1 < 0 := by omega
        simp only [if_neg g1, if_pos g2]
        rw [← Option.some.inj hs]
        have hm : (-(iq - 1) - 1).toNat = (-iq).toNat := by omega
        rw [hm, conj_check _ (List.mem_range.2 (by omega)) (by omega)]
      · rw [if_neg (by omega), if_neg (by omega)] at hs
        have g1 : iq - 1 = 0 ∨ iq - 1 > 48 ∨ iq - 1 < -48 := by omega
        simp only [if_pos g1]
        rw [← Option.some.inj hs]
        simp
    · rw [if_neg hneg]
      rw [if_neg (by omega)] at hs
      by_cases hr : iq ≤ 48
      · rw [if_pos (by omega)] at hs
        have g1 : ¬ (iq + 1 = 0 ∨ iq + 1 > 48 ∨ iq + 1 < -48) := by omega
        have g2 : ¬ (iq + 1 < 0) := by omega
        simp only [if_neg g1, if_neg g2]
        rw [← Option.some.inj hs]
        omega
      · rw [if_neg (by omega)] at hs
        have g1 : iq + 1 = 0 ∨ iq + 1 > 48 ∨ iq + 1 < -48 := by omega
        simp only [if_pos g1]
        rw [← Option.some.inj hs]
        simp
  unfold search
  rw [startIndex_pos 48 Quat.conj4 i hlt, show startIndex ((48:ℕ):ℤ) Quat.conj4 (if iq < 0 then iq - 1 else iq + 1) = (i : ℤ) + 1 from est.symm]

/-- **C145**: whatever the start index, the search of the scripts returns an equivalent orientation, and none is closer. -/
theorem c145_nearest4 (q1 q2 q' : Q4) (h1 : tiny ≤ quatmagn4 q1) (h2 : tiny ≤ quatmagn4 q2) (iq : ℤ) (h : quatSymm4 q1 q2 iq = some q') :
    (∃ g, lenSq g = 1 ∧ MapsCubeToItself g ∧ q' = quatmult4 q2 g) ∧
    (∀ g, lenSq g = 1 → MapsCubeToItself g → quatdiffsq4 q1 q' ≤ quatdiffsq4 q1 (quatmult4 q2 g)) ∧
    (2 + √2) / 4 ≤ inner4 (quatnorm4 q') (quatnorm4 q1) := by
  obtain ⟨hi, hi'⟩ : iq ≠ 48 ∧ iq ≠ -48 := by
    have := (c145_violation_index q1 q2 ⟨0, 0⟩ ⟨0, 0⟩ 0 0 iq).1
    rw [h] at this
    simp only [reduceCtorEq, false_iff] at this
    tauto
  obtain ⟨i, hs, hlt⟩ := start_ok 48 (by norm_num) PyQuat.conj4 conj_length conj4_lt iq hi hi'
  have key := symm_same (φ := Real.sqrt) (crit := 2 * Real.sin (Real.pi * 0.0625)) (thr := thr4) (fun n hn => cand4_same q1 q2 h1 h2 n hn)
    (cand4_pos q1 q2) sqrt_order (fun x hx => by
      have e : thr4 = 2 * Real.sin (Real.pi * 0.0625) * (2 * Real.sin (Real.pi * 0.0625)) := by
        unfold thr4; rw [show Real.pi * 0.0625 = Real.pi / 16 by ring]
      rw [e]
      refine sqrt_crit ?_ x hx
      have := Real.sin_nonneg_of_nonneg_of_le_pi (x := Real.pi * 0.0625) (by positivity) (by linarith [Real.pi_pos])
      linarith) PyQuat.conj4 Quat.conj4 iq i hs hlt
  have he : (quatfindsymm4 q1 q2 ((i : ℤ) + 1)).1 = q' := by
    unfold quatSymm4 at h
    rw [key] at h
    exact Option.some.inj h
  obtain ⟨k, hk⟩ : ∃ k, quatfindsymm4 q1 q2 ((i : ℤ) + 1) = (q', k) := ⟨_, by rw [← he]⟩
  refine ⟨?_, fun g hg hm => c15_nearest_equivalent q1 q2 q' _ k hk g hg hm, c15_misorientation q1 q2 q' _ k h1 h2 hk⟩
  obtain ⟨⟨k1, k2⟩, hr, _⟩ := c15_search4 q1 q2 q' _ k hk
  rw [rotate4_pos k1 k2] at hr
  simp only [Option.some.injEq, Prod.mk.injEq, and_true] at hr
  obtain ⟨a, b⟩ := c14_table_sound k k1 k2
  exact ⟨qr4 k, a, b, hr.symm⟩

/-- **C145**: `quatMakeFundamental` gives an equivalent orientation turned by at most 62.8 degrees. -/
theorem c145_fundamental (q : Q4) (hu : lenSq q = 1) : ∃ q', makeFundamental q = some q' ∧ lenSq q' = 1 ∧ (2 + √2) / 4 ≤ q'.q1 := by
  have hmag : ∀ p : Q4, lenSq p = 1 → quatmagn4 p = 1 := fun p hp => by rw [magn4_eq, ← lenSq_eq, hp, Real.sqrt_one]
  have hnorm : ∀ p : Q4, lenSq p = 1 → quatnorm4 p = p := fun p hp => by
    rw [norm4_of_ge (by rw [← lenSq_eq, hp]), ← lenSq_eq, hp]; ext <;> simp [smul4]
  have h0 : lenSq ⟨1, 0, 0, 0⟩ = 1 := by simp [lenSq]
  have e0 : normalize4 ⟨1, 0, 0, 0⟩ = ⟨1, 0, 0, 0⟩ := by
    rw [normalize4_same (by rw [hmag _ h0]; exact tiny_le_one), hnorm _ h0]
  unfold makeFundamental
  rw [e0]
  cases hq : quatSymm4 ⟨1, 0, 0, 0⟩ q 0 with
  | none =>
    have := (c145_violation_index ⟨1, 0, 0, 0⟩ q ⟨0, 0⟩ ⟨0, 0⟩ 0 0 0).1.1 hq
    omega
  | some q' =>
    obtain ⟨⟨g, hg, _, he⟩, _, hb⟩ := c145_nearest4 _ q q' (by rw [hmag _ h0]; exact tiny_le_one) (by rw [hmag _ hu]; exact tiny_le_one) 0 hq
    have hu' : lenSq q' = 1 := by rw [lenSq_eq, he, magsq4_mult, ← lenSq_eq g, hg, mul_one, ← lenSq_eq]; exact hu
    refine ⟨q', rfl, hu', ?_⟩
    rw [hnorm _ h0, hnorm _ hu'] at hb
    simpa [inner4] using hb

/-- **C145**: the same for two components. -/
theorem c145_nearest2 (q1 q2 q' : Q2) (h1 : tiny ≤ quatmagn2 q1) (h2 : tiny ≤ quatmagn2 q2) (iq : ℤ) (h : quatSymm2 q1 q2 iq = some q')
    (n : ℕ) (hn : n < 4) : quatdiffsq2 q1 q' ≤ quatdiffsq2 q1 (mult2 q2 (rot2 n)) := by
  obtain ⟨hi, hi'⟩ : iq ≠ 4 ∧ iq ≠ -4 := by
    have := (c145_violation_index ⟨0, 0, 0, 0⟩ ⟨0, 0, 0, 0⟩ q1 q2 0 0 iq).2.1
    rw [h] at this
    simp only [reduceCtorEq, false_iff] at this
    tauto
  obtain ⟨i, hs, hlt⟩ := start_ok 4 (by norm_num) PyQuat.conj2 rfl conj2_lt iq hi hi'
  have key := symm_same (φ := Real.sqrt) (crit := 2 * Real.sin (Real.pi / 8)) (thr := thr2) (fun n hn => cand2_same q1 q2 h1 h2 n hn)
    (cand2_pos q1 q2) sqrt_order (fun x hx => by
      refine sqrt_crit ?_ x hx
      have := Real.sin_nonneg_of_nonneg_of_le_pi (x := Real.pi / 8) (by positivity) (by linarith [Real.pi_pos])
      linarith) PyQuat.conj2 Quat.conj2 iq i hs hlt
  have he : (quatfindsymm2 q1 q2 ((i : ℤ) + 1)).1 = q' := by
    unfold quatSymm2 at h
    rw [key] at h
    exact Option.some.inj h
  obtain ⟨k, hk⟩ : ∃ k, quatfindsymm2 q1 q2 ((i : ℤ) + 1) = (q', k) := ⟨_, by rw [← he]⟩
  rw [mult2_same, rot2_same hn]
  exact c15_nearest2 q1 q2 q' _ k hk ((n : ℤ) + 1) (by omega) (by omega) _ (rotate2_pos (by omega) (by omega))

/-- **C145, violation**: `quatSymm1` returns nothing at all whenever the first angle tried is near enough; only otherwise a nearest one. -/
theorem c145_violation_angle (q1 q2 : ℝ) :
    (quatSymm1 q1 q2 0 = .nothing ↔ |q2 - q1| ≤ Real.pi / 4) ∧
    (Real.pi / 4 < |q2 - q1| → ∃ q', quatSymm1 q1 q2 0 = .angle q' ∧ (∃ n : ℤ, q' = q2 + n * (Real.pi / 2)) ∧
      ∀ n : ℤ, -4 ≤ n → n ≤ 4 → |q' - q1| ≤ |q2 + n * (Real.pi / 2) - q1|) := by
  have e0 : diff1 q1 q2 (rot1 0) = (|q2 - q1|, q2) := by simp [diff1, rot1]
  have hst : start 9 PyQuat.conj1 0 = some 0 := by rfl
  have unf : quatSymm1 q1 q2 0 = if |q2 - q1| ≤ Real.pi / 4 then .nothing
      else .angle (loop (fun n => diff1 q1 q2 (rot1 n)) (Real.pi / 4) 0 (List.range 9) (|q2 - q1|, q2)) := by
    unfold quatSymm1
    rw [hst]
    simp only
    rw [if_neg (by norm_num), e0]
  rw [unf]
  constructor
  · split_ifs with h <;> simp [h]
  · intro h
    rw [if_neg (not_le.2 h)]
    refine ⟨_, rfl, ?_⟩
    have thr : thr1 = Real.pi / 4 := by unfold thr1; ring
    have c0 : cand1 q1 q2 1 = (q2, |q2 - q1|) := by simp [cand1]
    have key : loop (fun n => diff1 q1 q2 (rot1 n)) (Real.pi / 4) 0 (List.range 9) (id |q2 - q1|, q2) =
        (searchLoop (cand1 q1 q2) thr1 ((0:ℕ) + 1) ((List.range 9).map fun k : ℕ => (k : ℤ) + 1) (1, q2, |q2 - q1|)).2.1 :=
      loop_same (N := 9) (fun n hn => cand1_same q1 q2 n hn) (cand1_pos q1 q2) (fun x y _ _ => Iff.rfl) (fun x _ => by rw [thr]; rfl) 0 _
        (fun n hn => List.mem_range.1 hn) 1 q2 _ (abs_nonneg _)
    have hf : (quatfindsymm1 q1 q2 1).1 = loop (fun n => diff1 q1 q2 (rot1 n)) (Real.pi / 4) 0 (List.range 9) (|q2 - q1|, q2) := by
      have e1 : startIndex (9:ℕ) Quat.conj1 1 = 1 := by decide
      unfold quatfindsymm1 search
      rw [e1]
      simp only [c0]
      rw [if_neg (by rw [thr]; exact not_le.2 h)]
      exact key.symm
    obtain ⟨k, hk⟩ : ∃ k, quatfindsymm1 q1 q2 1 = (loop (fun n => diff1 q1 q2 (rot1 n)) (Real.pi / 4) 0 (List.range 9) (|q2 - q1|, q2), k) :=
      ⟨_, by rw [← hf]⟩
    refine ⟨?_, fun n a b => c15_nearest1 q1 q2 _ 1 k hk n a b⟩
    obtain ⟨⟨k1, k2⟩, hr, _⟩ := c15_search1 q1 q2 _ 1 k hk
    simp only [quatsymmrotate1, checkIndex] at hr
    rw [if_neg (by omega), if_neg (by omega)] at hr
    simp only [Option.map_some, Option.some.injEq, Prod.mk.injEq, and_true] at hr
    exact ⟨_, by rw [← hr, Quat.qr1]⟩

/-! ## Angles -/

/-- **C145**: the angle computed from the distance of two unit quaternions is the angle of the rotation between them. -/
theorem c145_angle (p q : Q4) (hp : lenSq p = 1) (hq : lenSq q = 1) (θ : ℝ) (h0 : 0 ≤ θ) (h1 : θ ≤ 2 * Real.pi)
    (h : inner4 p q = Real.cos (θ / 2)) : angle (magnitude4 ⟨q.q1 - p.q1, q.q2 - p.q2, q.q3 - p.q3, q.q4 - p.q4⟩) = θ := by
  have hs : 0 ≤ Real.sin (θ / 4) := Real.sin_nonneg_of_nonneg_of_le_pi (by linarith) (by linarith [Real.pi_pos])
  have hm : magnitude4 ⟨q.q1 - p.q1, q.q2 - p.q2, q.q3 - p.q3, q.q4 - p.q4⟩ = 2 * Real.sin (θ / 4) := by
    have c2 : Real.cos (θ / 2) = 1 - 2 * Real.sin (θ / 4) ^ 2 := by
      rw [show θ / 2 = 2 * (θ / 4) by ring, Real.cos_two_mul, Real.cos_sq']; ring
    have e : (0 + (q.q1 - p.q1) * (q.q1 - p.q1) + (q.q2 - p.q2) * (q.q2 - p.q2) + (q.q3 - p.q3) * (q.q3 - p.q3) +
        (q.q4 - p.q4) * (q.q4 - p.q4)) = (2 * Real.sin (θ / 4)) ^ 2 := by
      simp only [lenSq, inner4] at hp hq h
      nlinarith
    simp only [magnitude4]
    rw [e, Real.sqrt_sq (by linarith)]
  have hle := Real.sin_le_one (θ / 4)
  unfold angle
  rw [hm, if_neg (by linarith), show (0.5 : ℝ) * (2 * Real.sin (θ / 4)) = Real.sin (θ / 4) by ring,
    Real.arcsin_sin (by linarith [Real.pi_pos]) (by linarith)]
  ring

/-- **C145**: and for two components. -/
theorem c145_angle2 (p q : Q2) (hp : p.q1 ^ 2 + p.q2 ^ 2 = 1) (hq : q.q1 ^ 2 + q.q2 ^ 2 = 1) (θ : ℝ) (h0 : 0 ≤ θ) (h1 : θ ≤ Real.pi)
    (h : inner2 p q = Real.cos θ) : angle2 (magnitude2 ⟨q.q1 - p.q1, q.q2 - p.q2⟩) = θ := by
  have hs : 0 ≤ Real.sin (θ / 2) := Real.sin_nonneg_of_nonneg_of_le_pi (by linarith) (by linarith [Real.pi_pos])
  have hm : magnitude2 ⟨q.q1 - p.q1, q.q2 - p.q2⟩ = 2 * Real.sin (θ / 2) := by
    have c2 : Real.cos θ = 1 - 2 * Real.sin (θ / 2) ^ 2 := by
      rw [show Real.cos θ = Real.cos (2 * (θ / 2)) by congr 1; ring, Real.cos_two_mul, Real.cos_sq']; ring
    have e : (0 + (q.q1 - p.q1) * (q.q1 - p.q1) + (q.q2 - p.q2) * (q.q2 - p.q2)) = (2 * Real.sin (θ / 2)) ^ 2 := by
      simp only [inner2] at h
      nlinarith
    simp only [magnitude2]
    rw [e, Real.sqrt_sq (by linarith)]
  have hle := Real.sin_le_one (θ / 2)
  unfold angle2
  rw [hm, if_neg (by linarith), show (0.5 : ℝ) * (2 * Real.sin (θ / 2)) = Real.sin (θ / 2) by ring,
    Real.arcsin_sin (by linarith [Real.pi_pos]) (by linarith)]
  ring

/-! ## Examples -/

/-- The hypotheses of `c145_nearest4` are met by the orientation furthest from the reference. -/
example : ∃ q', quatSymm4 furthest ⟨1, 0, 0, 0⟩ 5 = some q' := by
  cases h : quatSymm4 furthest ⟨1, 0, 0, 0⟩ 5 with
  | none => have := (c145_violation_index furthest ⟨1, 0, 0, 0⟩ ⟨0, 0⟩ ⟨0, 0⟩ 0 0 5).1.1 h; omega
  | some q' => exact ⟨q', rfl⟩

/-- A quarter turn about the third axis. -/
example : inner4 ⟨1, 0, 0, 0⟩ ⟨Real.cos (Real.pi / 4), 0, 0, Real.sin (Real.pi / 4)⟩ = Real.cos (Real.pi / 2 / 2) := by
  simp only [inner4]; rw [show Real.pi / 2 / 2 = Real.pi / 4 by ring]; ring

end AMPE.PyQuat.Props
