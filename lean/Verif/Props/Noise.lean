import Verif.Model.Noise
import Mathlib.Tactic.Linarith
import Mathlib.Tactic.NormNum
import Mathlib.Tactic.Positivity
import Mathlib.Tactic.FieldSimp
import Mathlib.Tactic.Ring

/-!
# C103: fluctuations of the phase

The field has the weight `4 φ (1 - φ)` of the same cell, a fresh number in every cell; it is fixed during a step and scaled with the length
of the step; processes draw different numbers.
-/

namespace AMPE.Noise.Props

open AMPE.Noise

/-! ## Field -/

/-- Value of a cell: `n`-th number, phase `p`. -/
noncomputable def value (g : ℕ → ℝ) (n : ℕ) (p : ℝ) : ℝ := g n * (4 * p * (1 - p))

variable (g : ℕ → ℝ) (phi : ℤ → ℝ)

theorem cells_iter (n : ℕ) (s : St) :
    ((cell g phi)^[n] s).idx = s.idx + n ∧ ((cell g phi)^[n] s).idxPhi = s.idxPhi + n ∧
    ((cell g phi)^[n] s).drawn = s.drawn + n ∧
    (∀ i : ℕ, i < n → ((cell g phi)^[n] s).data (s.idx + i) = value g (s.drawn + i) (phi (s.idxPhi + i))) ∧
    (∀ p : ℤ, p < s.idx ∨ s.idx + n ≤ p → ((cell g phi)^[n] s).data p = s.data p) := by
  induction n with
  | zero => simp
  | succ n ih =>
    obtain ⟨h1, h2, h3, h4, h5⟩ := ih
    rw [Function.iterate_succ_apply']
    set t := (cell g phi)^[n] s
    refine ⟨?_, ?_, ?_, ?_, ?_⟩
    · simp only [cell, h1]; push_cast; ring
    · simp only [cell, h2]; push_cast; ring
    · simp only [cell, h3]; ring
    · intro i hi
      simp only [cell, h1, h2, h3]
      rcases Nat.lt_or_ge i n with h | h
      · rw [Function.update_of_ne (by omega)]
        exact h4 i h
      · have : i = n := by omega
        subst this
        rw [Function.update_self]
        unfold value; ring
    · intro p hp
      simp only [cell, h1]
      rw [Function.update_of_ne (by push_cast at hp; omega)]
      exact h5 p (by push_cast at hp; omega)

theorem rows_iter (nx : ℕ) (gap : ℤ) (m : ℕ) (s : St) :
    ((row g phi nx gap)^[m] s).idx = s.idx + (m * nx : ℕ) ∧ ((row g phi nx gap)^[m] s).idxPhi = s.idxPhi + m * (nx + gap) ∧
    ((row g phi nx gap)^[m] s).drawn = s.drawn + m * nx ∧
    (∀ j i : ℕ, j < m → i < nx → ((row g phi nx gap)^[m] s).data (s.idx + (j * nx + i : ℕ)) =
      value g (s.drawn + (j * nx + i)) (phi (s.idxPhi + j * (nx + gap) + i))) ∧
    (∀ p : ℤ, p < s.idx ∨ s.idx + (m * nx : ℕ) ≤ p → ((row g phi nx gap)^[m] s).data p = s.data p) := by
  induction m with
  | zero => simp
  | succ m ih =>
    obtain ⟨h1, h2, h3, h4, h5⟩ := ih
    rw [Function.iterate_succ_apply']
    set t := (row g phi nx gap)^[m] s
    obtain ⟨c1, c2, c3, c4, c5⟩ := cells_iter g phi nx t
    have hm : ((m + 1) * nx : ℕ) = m * nx + nx := by ring
    refine ⟨?_, ?_, ?_, ?_, ?_⟩
    · simp only [row, c1, h1]; push_cast; ring
    · simp only [row, c2, h2]; push_cast; ring
    · simp only [row, c3, h3]; ring
    · intro j i hj hi
      simp only [row]
      rcases Nat.lt_or_ge j m with h | h
      · have hle : j * nx + nx ≤ m * nx := by
          have := Nat.mul_le_mul_right nx (show j + 1 ≤ m from h)
          rw [Nat.add_mul, Nat.one_mul] at this
          exact this
        rw [c5 _ (Or.inl (by rw [h1]; push_cast; push_cast at hle; omega))]
        exact h4 j i h hi
      · have : j = m := by omega
        subst this
        have hc := c4 i hi
        rw [h1, h2, h3] at hc
        have e : s.idx + ((j * nx + i : ℕ) : ℤ) = s.idx + (j * nx : ℕ) + i := by push_cast; ring
        rw [e, hc]
        congr 1
        ring
    · intro p hp
      rw [hm] at hp
      simp only [row]
      rw [c5 p (by rw [h1]; push_cast at hp ⊢; omega)]
      exact h5 p (by push_cast at hp ⊢; omega)

theorem planes_iter (nx ny : ℕ) (gap gap2 : ℤ) (l : ℕ) (s : St) :
    ((plane g phi nx ny gap gap2)^[l] s).idx = s.idx + (l * (ny * nx) : ℕ) ∧
    ((plane g phi nx ny gap gap2)^[l] s).idxPhi = s.idxPhi + l * (ny * (nx + gap) + gap2) ∧
    ((plane g phi nx ny gap gap2)^[l] s).drawn = s.drawn + l * (ny * nx) ∧
    (∀ k j i : ℕ, k < l → j < ny → i < nx → ((plane g phi nx ny gap gap2)^[l] s).data (s.idx + (k * (ny * nx) + (j * nx + i) : ℕ)) =
      value g (s.drawn + (k * (ny * nx) + (j * nx + i))) (phi (s.idxPhi + k * (ny * (nx + gap) + gap2) + j * (nx + gap) + i))) ∧
    (∀ p : ℤ, p < s.idx ∨ s.idx + (l * (ny * nx) : ℕ) ≤ p → ((plane g phi nx ny gap gap2)^[l] s).data p = s.data p) := by
  induction l with
  | zero => simp
  | succ l ih =>
    obtain ⟨h1, h2, h3, h4, h5⟩ := ih
    rw [Function.iterate_succ_apply']
    set t := (plane g phi nx ny gap gap2)^[l] s
    obtain ⟨c1, c2, c3, c4, c5⟩ := rows_iter g phi nx gap ny t
    have hm : ((l + 1) * (ny * nx) : ℕ) = l * (ny * nx) + ny * nx := by ring
    refine ⟨?_, ?_, ?_, ?_, ?_⟩
    · simp only [plane, c1, h1]; push_cast; ring
    · simp only [plane, c2, h2]; push_cast; ring
    · simp only [plane, c3, h3]; ring
    · intro k j i hk hj hi
      simp only [plane]
      have hin : j * nx + i < ny * nx := by
        have := Nat.mul_le_mul_right nx (show j + 1 ≤ ny from hj)
        rw [Nat.add_mul, Nat.one_mul] at this
        omega
      rcases Nat.lt_or_ge k l with h | h
      · have hle : k * (ny * nx) + ny * nx ≤ l * (ny * nx) := by
          have := Nat.mul_le_mul_right (ny * nx) (show k + 1 ≤ l from h)
          rw [Nat.add_mul, Nat.one_mul] at this
          exact this
        rw [c5 _ (Or.inl (by
          rw [h1]
          have : k * (ny * nx) + (j * nx + i) < l * (ny * nx) := by omega
          have : ((k * (ny * nx) + (j * nx + i) : ℕ) : ℤ) < ((l * (ny * nx) : ℕ) : ℤ) := by exact_mod_cast this
          linarith))]
        exact h4 k j i h hj hi
      · have : k = l := by omega
        subst this
        have hc := c4 j i hj hi
        rw [h1, h2, h3] at hc
        have e : s.idx + ((k * (ny * nx) + (j * nx + i) : ℕ) : ℤ) = s.idx + (k * (ny * nx) : ℕ) + (j * nx + i : ℕ) := by push_cast; ring
        rw [e, hc]
        congr 1
        ring
    · intro p hp
      have hp' : p < s.idx ∨ s.idx + (l * (ny * nx) : ℕ) + (ny * nx : ℕ) ≤ p := by
        rcases hp with hp | hp
        · exact Or.inl hp
        · exact Or.inr (by rw [hm] at hp; push_cast at hp ⊢; linarith)
      have hn : (0 : ℤ) ≤ ((l * (ny * nx) : ℕ) : ℤ) := Int.natCast_nonneg _
      have hn' : (0 : ℤ) ≤ ((ny * nx : ℕ) : ℤ) := Int.natCast_nonneg _
      simp only [plane]
      rw [c5 p (by rw [h1]; rcases hp' with h | h; exacts [Or.inl (by linarith), Or.inr h])]
      exact h5 p (by rcases hp' with h | h; exacts [Or.inl h, Or.inr (by linarith)])

/-- Cell in a box. -/
def Mem3 (b : Box3) (i j k : ℤ) : Prop :=
  b.lo 0 ≤ i ∧ i ≤ b.hi 0 ∧ b.lo 1 ≤ j ∧ j ≤ b.hi 1 ∧ b.lo 2 ≤ k ∧ k ≤ b.hi 2

/-- **C103**: every cell of the patch and of its ghost region gets the weight of the phase in that same cell times a number of its own, in
the order of the cells — for all boxes and ghost widths, in two and three dimensions. -/
theorem c103_field (first : ℕ) (b : Box3) (gd gp : Fin 3 → ℤ) (data : ℤ → ℝ) (i j k : ℤ) (h : Mem3 (b.grow gd) i j k) :
    setField g first b gd gp phi data (position (b.grow gd) i j k) =
      value g (first + (position (b.grow gd) i j k).toNat) (phi (position (b.grow gp) i j k)) := by
  obtain ⟨hi, hi', hj, hj', hk, hk'⟩ := h
  set gb := b.grow gd with hgb
  obtain ⟨x, hx⟩ := Int.eq_ofNat_of_zero_le (show (0 : ℤ) ≤ i - gb.lo 0 by omega)
  obtain ⟨y, hy⟩ := Int.eq_ofNat_of_zero_le (show (0 : ℤ) ≤ j - gb.lo 1 by omega)
  obtain ⟨z, hz⟩ := Int.eq_ofNat_of_zero_le (show (0 : ℤ) ≤ k - gb.lo 2 by omega)
  obtain ⟨nx, hnx⟩ := Int.eq_ofNat_of_zero_le (show (0 : ℤ) ≤ gb.cells 0 by unfold Box3.cells; omega)
  obtain ⟨ny, hny⟩ := Int.eq_ofNat_of_zero_le (show (0 : ℤ) ≤ gb.cells 1 by unfold Box3.cells; omega)
  obtain ⟨nz, hnz⟩ := Int.eq_ofNat_of_zero_le (show (0 : ℤ) ≤ gb.cells 2 by unfold Box3.cells; omega)
  have hxn : x < nx := by unfold Box3.cells at hnx; omega
  have hyn : y < ny := by unfold Box3.cells at hny; omega
  have hzn : z < nz := by unfold Box3.cells at hnz; omega
  have hpos : position gb i j k = ((z * (ny * nx) + (y * nx + x) : ℕ) : ℤ) := by
    simp only [position, hx, hy, hz, hnx, hny]
    push_cast; ring
  have e0 : (b.grow gp).cells 0 = nx + 2 * (gp 0 - gd 0) := by
    rw [← hnx]; simp only [hgb, Box3.cells, Box3.grow]; ring
  have e1 : (b.grow gp).cells 1 = ny + 2 * (gp 1 - gd 1) := by
    rw [← hny]; simp only [hgb, Box3.cells, Box3.grow]; ring
  have hx' : i - (b.grow gp).lo 0 = x + (gb.lo 0 - (b.grow gp).lo 0) := by omega
  have hy' : j - (b.grow gp).lo 1 = y + (gb.lo 1 - (b.grow gp).lo 1) := by omega
  have hz' : k - (b.grow gp).lo 2 = z + (gb.lo 2 - (b.grow gp).lo 2) := by omega
  obtain ⟨-, -, -, key, -⟩ := planes_iter g phi nx ny (2 * (gp 0 - gd 0)) (2 * (b.grow gp).cells 0 * (gp 1 - gd 1)) nz
    ⟨0, (gb.lo 0 - (b.grow gp).lo 0) + (gb.lo 1 - (b.grow gp).lo 1) * (b.grow gp).cells 0 +
      (gb.lo 2 - (b.grow gp).lo 2) * ((b.grow gp).cells 0 * (b.grow gp).cells 1), first, data⟩
  have hk := key z y x hzn hyn hxn
  simp only [zero_add] at hk
  simp only [setField, ← hgb, hnx, hny, hnz, Int.toNat_natCast, Int.ofNat_eq_natCast, hpos] at hk ⊢
  rw [hk]
  congr 2
  simp only [position, hx', hy', hz', e0, e1]
  ring

/-- **C103**: the field vanishes in the bulk of both phases. -/
theorem c103_bulk (n : ℕ) : value g n 0 = 0 ∧ value g n 1 = 0 := by
  constructor <;> simp [value]

/-! ## Numbers -/

theorem states_range (seed n : ℕ) : 0 < states seed n ∧ states seed n < modulus := by
  induction n with
  | zero =>
    simp only [states, seeded]
    split
    · simp [modulus]
    · exact ⟨by omega, Nat.mod_lt _ (by simp [modulus])⟩
  | succ n ih =>
    refine ⟨Nat.pos_of_ne_zero fun h => ?_, Nat.mod_lt _ (by simp [modulus])⟩
    have hd : modulus ∣ multiplier * states seed n := Nat.dvd_of_mod_eq_zero h
    have hc : Nat.Coprime modulus multiplier := by decide +kernel
    have := Nat.le_of_dvd ih.1 (hc.dvd_of_dvd_mul_left hd)
    omega

/-- **C103**: the numbers lie in `[-1/2, 1/2)`. -/
theorem c103_range (rank n : ℕ) : -(1 / 2) ≤ gen rank n ∧ gen rank n < 1 / 2 := by
  obtain ⟨h1, h2⟩ := states_range rank (n + 1)
  have h1' : (1 : ℝ) ≤ (states rank (n + 1) : ℝ) := by exact_mod_cast h1
  have h2' : (states rank (n + 1) : ℝ) < 2147483647 := by exact_mod_cast h2
  unfold gen toUniform
  have hm : ((modulus : ℕ) : ℝ) = 2147483647 := by norm_num [modulus]
  rw [hm]
  constructor
  · have : 0 ≤ ((states rank (n + 1) : ℝ) - 1) / (2147483647 - 1) := div_nonneg (by linarith) (by norm_num)
    linarith
  · have : ((states rank (n + 1) : ℝ) - 1) / (2147483647 - 1) < 1 := by
      rw [div_lt_one (by norm_num)]; linarith
    linarith

/-- **C103**: the states are spread evenly over the whole interval: from -1/2 in 2147483646 equal steps to 1/2. -/
theorem c103_even (x : ℕ) : toUniform 1 = -(1 / 2) ∧ toUniform 2147483647 = 1 / 2 ∧ toUniform (x + 1) - toUniform x = 1 / 2147483646 := by
  unfold toUniform
  have hm : ((modulus : ℕ) : ℝ) = 2147483647 := by norm_num [modulus]
  rw [hm]
  refine ⟨by norm_num, by norm_num, ?_⟩
  push_cast
  ring

/-- **C103**: for phases between 0 and 1 the field is at most one half in size. -/
theorem c103_bound (rank n : ℕ) (p : ℝ) (h0 : 0 ≤ p) (h1 : p ≤ 1) : |value (gen rank) n p| ≤ 1 / 2 := by
  obtain ⟨ha, hb⟩ := c103_range rank n
  have hw : 0 ≤ 4 * p * (1 - p) := by nlinarith
  have hw' : 4 * p * (1 - p) ≤ 1 := by nlinarith [sq_nonneg (2 * p - 1)]
  unfold value
  rw [abs_mul, abs_of_nonneg hw]
  have hg : |gen rank n| ≤ 1 / 2 := abs_le.2 ⟨by linarith, by linarith⟩
  calc |gen rank n| * (4 * p * (1 - p)) ≤ 1 / 2 * 1 := mul_le_mul hg hw' hw (by norm_num)
    _ = 1 / 2 := by ring

/-- **C103**: it is as large as the weight, and no larger bound holds outside: beyond the interval the sign of the field is reversed. -/
theorem c103_outside (n : ℕ) (p : ℝ) (h : p < 0 ∨ 1 < p) (hg : 0 < g n) : value g n p < 0 := by
  unfold value
  refine mul_neg_of_pos_of_neg hg ?_
  rcases h with h | h
  · nlinarith [mul_neg_of_neg_of_pos h (show (0 : ℝ) < 1 - p by linarith)]
  · nlinarith [mul_pos (show (0 : ℝ) < p by linarith) (show (0 : ℝ) < p - 1 by linarith)]

/-- **C103, violated**: processes 0 and 1 draw the same numbers. -/
theorem c103_violation_ranks (n : ℕ) : gen 0 n = gen 1 n := by
  have : ∀ k, states 0 k = states 1 k := by
    intro k
    induction k with
    | zero => decide
    | succ k ih => simp only [states, ih]
  simp only [gen, this]

/-- **C103, violated**: the numbers of all other processes are multiples of those of process 1. -/
theorem c103_violation_dependent (rank : ℕ) (h : rank % modulus ≠ 0) (n : ℕ) :
    states rank n = rank * states 1 n % modulus := by
  induction n with
  | zero =>
    have h1 : seeded 1 = 1 := by decide
    show seeded rank = rank * seeded 1 % modulus
    rw [h1, Nat.mul_one]
    exact if_neg h
  | succ n ih =>
    simp only [states, advance, ih]
    rw [Nat.mul_mod_mod, Nat.mul_mod_mod]
    congr 1
    ring

/-- **C103, violated**: the first number of every process with a rank below 4449 is close to the lower end: all first cells are
pushed in the same direction. -/
theorem c103_violation_first (rank : ℕ) (h : rank ≤ 4448) : gen rank 0 < -(2 / 5) := by
  have key : ∀ r : ℕ, 1 ≤ r → r ≤ 4448 → gen r 0 < -(2 / 5) := by
    intro r h1 h2
    have hs : states r (0 + 1) = 48271 * r := by
      have hr : r % modulus = r := Nat.mod_eq_of_lt (by unfold modulus; omega)
      have h0 : seeded r = r := by
        unfold seeded
        rw [hr, if_neg (by omega)]
      show multiplier * seeded r % modulus = _
      rw [h0]
      exact Nat.mod_eq_of_lt (by unfold modulus multiplier; omega)
    have hr : (r : ℝ) ≤ 4448 := by exact_mod_cast h2
    unfold gen toUniform
    rw [hs]
    have hm : ((modulus : ℕ) : ℝ) = 2147483647 := by norm_num [modulus]
    rw [hm]
    push_cast
    have : (48271 * (r : ℝ) - 1) / (2147483647 - 1) < 1 / 10 := by
      rw [div_lt_iff₀ (by norm_num)]
      linarith
    linarith
  rcases Nat.eq_zero_or_pos rank with h0 | h0
  · rw [h0, c103_violation_ranks]
    exact key 1 le_rfl (by norm_num)
  · exact key rank h0 h

/-! ## Times -/

/-- A step of the time integrator from `last` to `t`: evaluations at time `t` only (residual or finite difference). -/
noncomputable def more (last t : ℝ) : List Bool → Clock → List (Option (Option ℕ × ℝ))
  | [], _ => []
  | e :: es, c => (evaluate true last t e c).2 :: more last t es (evaluate true last t e c).1

/-- **C103 (within a run)**: in a step from `last` to a new time `t` the first evaluation draws a new field and all others use the same one, all
scaled with the length of the step. -/
theorem c103_step_partial (last t : ℝ) (ht : last < t) (c : Clock) (hc : c.old ≠ t) (es : List Bool) :
    (evaluate true last t true c).2 = some (some c.count, t - last) ∧ (evaluate true last t true c).1.count = c.count + 1 ∧
    ∀ r ∈ more last t es (evaluate true last t true c).1, r = some (some c.count, t - last) := by
  have hd : 0 < t - last := by linarith
  have h1 : (evaluate true last t true c).1 = ⟨t, t - last, some c.count, c.count + 1⟩ := by
    simp [evaluate, Ne.symm hc, hd, ht]
  refine ⟨by simp [evaluate, Ne.symm hc, ht], by rw [h1], ?_⟩
  rw [h1]
  intro r hr
  have : ∀ (es : List Bool), ∀ r ∈ more last t es ⟨t, t - last, some c.count, c.count + 1⟩, r = some (some c.count, t - last) := by
    intro es
    induction es with
    | nil => intro r hr; simp [more] at hr
    | cons e es ih =>
      intro r hr
      have he : evaluate true last t e ⟨t, t - last, some c.count, c.count + 1⟩ =
          (⟨t, t - last, some c.count, c.count + 1⟩, some (some c.count, t - last)) := by
        simp [evaluate, ht]
      simp only [more, he, List.mem_cons] at hr
      rcases hr with hr | hr
      · exact hr
      · exact ih r hr
  exact this es r hr

/-- **C103**: what the noise adds over a step has a variance proportional to the length of the step. -/
theorem c103_scaling (a dt x : ℝ) (h : 0 < dt) : (dt * term a dt x) ^ 2 = a ^ 2 * x ^ 2 * dt := by
  unfold term
  have hs : Real.sqrt dt ^ 2 = dt := Real.sq_sqrt h.le
  have hs0 : Real.sqrt dt ≠ 0 := (Real.sqrt_pos.2 h).ne'
  rw [mul_pow, mul_pow, div_pow, hs]
  field_simp

/-- **C103**: a new run adds nothing before its first step. -/
theorem c103_start : (evaluate true 0 0 true clock0).2 = none := by
  norm_num [evaluate, clock0]

/-- **C103**: without an amplitude nothing is ever added. -/
theorem c103_off (last t : ℝ) (e : Bool) (c : Clock) : (evaluate false last t e c).2 = none := by
  simp [evaluate]

/-- **C103, violated**: a run resumed at time `T` takes 0 for the time of the last step until it has done a step: noise is added before the
first step, and the first step of length `h` is scaled with `T + h` instead of `h`. -/
theorem c103_violation_resumed (T h : ℝ) (hT : 0 < T) (hh : 0 < h) :
    (evaluate true 0 T true clock0).2 = some (some 0, T) ∧
    (evaluate true 0 (T + h) true (evaluate true 0 T true clock0).1).2 = some (some 1, T + h) := by
  have h1 : T ≠ -1 := by linarith
  have h2 : T + h ≠ T := by linarith
  have h3 : 0 < T + h := by linarith
  constructor <;> simp [evaluate, clock0, h1, hT, hh.ne', h3]

/-- **C103, violated**: after a regridding the integrator starts again at the time of the last evaluation; nothing is drawn and the contents of
uninitialised memory are added to the rate. -/
theorem c103_violation_remeshed (last t : ℝ) (ht : last < t) (c : Clock) (hc : c.old ≠ t) (e : Bool) (last' : ℝ) :
    (evaluate true last' t e (remeshed (evaluate true last t true c).1)).2 = some (none, t - last) := by
  have h1 : (evaluate true last t true c).1 = ⟨t, t - last, some c.count, c.count + 1⟩ := by
    simp [evaluate, Ne.symm hc, ht]
  rw [h1]
  simp [evaluate, remeshed, ht]

/-- **C103, violated**: if the first evaluation at a new time is a finite difference, the whole step keeps the field and the scaling of the step
before. -/
theorem c103_violation_order (last t : ℝ) (c : Clock) (hd : 0 < c.deltat) (es : List Bool) :
    ∀ r ∈ more last t (false :: es) c, r = some (c.field, c.deltat) := by
  have h0 : evaluate true last t false c = (⟨t, c.deltat, c.field, c.count⟩, some (c.field, c.deltat)) := by
    simp [evaluate, hd]
  have : ∀ (es : List Bool), ∀ r ∈ more last t es ⟨t, c.deltat, c.field, c.count⟩, r = some (c.field, c.deltat) := by
    intro es
    induction es with
    | nil => intro r hr; simp [more] at hr
    | cons e es ih =>
      intro r hr
      have he : evaluate true last t e ⟨t, c.deltat, c.field, c.count⟩ = (⟨t, c.deltat, c.field, c.count⟩, some (c.field, c.deltat)) := by
        simp [evaluate, hd]
      simp only [more, he, List.mem_cons] at hr
      rcases hr with hr | hr
      · exact hr
      · exact ih r hr
  intro r hr
  simp only [more, h0, List.mem_cons] at hr
  rcases hr with hr | hr
  · exact hr
  · exact this es r hr

/-- **C103, violated**: the amplitude given in the input has no effect in models with several order parameters or three phases. -/
theorem c103_violation_ignored (threePhases : Bool) (norderp : ℕ) (conc wang : Bool) :
    addsNoise (strategy threePhases norderp conc wang) = true ↔ threePhases = false ∧ norderp ≤ 1 := by
  unfold strategy
  by_cases h : 1 < norderp <;> cases threePhases <;> cases conc <;> cases wang <;> simp [addsNoise, h] <;> omega

/-! ## Non-vacuity -/

/-- A patch of 2×2 cells without ghosts in a phase array with one ghost cell. -/
example : Mem3 (Box3.grow ⟨fun _ => 0, fun d => if d = 2 then 0 else 1⟩ fun _ => 0) 1 1 0 := by
  unfold Mem3 Box3.grow
  simp

example : gen 2 0 ≠ gen 3 0 := by
  unfold gen toUniform
  norm_num [states, seeded, advance, modulus, multiplier]

example : (evaluate true 0 1 true (evaluate true 0 0 true clock0).1).2 = some (some 0, 1) := by
  norm_num [evaluate, clock0]

end AMPE.Noise.Props
