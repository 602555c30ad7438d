import Verif.Model.Sphere
import Verif.Props.PyQuat

/-!
# C150: the file of spheres holds the spheres asked for
-/

namespace AMPE.Sphere.Props

open AMPE.Sphere AMPE.Quat AMPE.PyQuat AMPE.PyQuat.Props AMPE.Quat.Props

/-! ## What is meant -/

/-- The middle of the cell lies within `r` of the point. -/
def Within (x y z r : ℝ) (i j k : ℕ) : Prop := ((i : ℝ) + 1 / 2 - x) ^ 2 + ((j : ℝ) + 1 / 2 - y) ^ 2 + ((k : ℝ) + 1 / 2 - z) ^ 2 < r ^ 2

/-- A file has been written. -/
def Writes (o : Opts) (draw : ℕ → Draw) (d : Data) : Prop := run o draw = .file d

/-- Degrees. -/
noncomputable def deg (a : ℝ) : ℝ := a * Real.pi / 180

/-- A draw of `random.random()`. -/
def Unit01 (d : Draw) : Prop := (0 ≤ d.r ∧ d.r ≤ 1) ∧ (0 ≤ d.x ∧ d.x ≤ 1) ∧ (0 ≤ d.y ∧ d.y ≤ 1) ∧ (0 ≤ d.z ∧ d.z ≤ 1) ∧ 0 ≤ d.a ∧ d.a ≤ 1

theorem has_iff (b : Ball) (i j k : ℕ) : b.Has i j k ↔ Within b.cx b.cy b.cz b.r i j k := by
  unfold Ball.Has Within; norm_num [pow_two]

theorem run_eq {o : Opts} {nx ny nz : ℕ} (hq : o.qlen = 4 ∨ o.qlen = 2 ∨ o.qlen = 1) (hx : size o.ncells o.nx = some nx)
    (hy : size o.ncells o.ny = some ny) (hz : size o.ncells o.nz = some nz) {k : Kind} (hk : o.kind = some k) (hqu : o.quats = none)
    (ha : o.badAngles k = false) (draw : ℕ → Draw) :
    run o draw = finish o draw nx ny nz k := by
  unfold run
  rw [if_neg (not_not.mpr hq), hk, hx, hy, hz, hqu]
  simp only [ha, Bool.false_eq_true, if_false]

/-- A file is written only for one sphere or for random ones. -/
theorem writes_inv {o : Opts} {draw : ℕ → Draw} {d : Data} (h : Writes o draw d) :
    ∃ nx ny nz k, size o.ncells o.nx = some nx ∧ size o.ncells o.ny = some ny ∧ size o.ncells o.nz = some nz ∧ o.kind = some k
      ∧ o.quats = none ∧ o.badAngles k = false ∧ (o.qlen = 4 ∨ o.qlen = 2 ∨ o.qlen = 1) := by
  unfold Writes run at h
  split_ifs at h with hq
  split at h
  · cases h
  · rename_i k hk
    split at h
    · rename_i nx ny nz hx hy hz
      split at h
      · rename_i r hr
        subst h
        unfold Opts.quats at hr
        split_ifs at hr <;> cases hr
      · rename_i hqu
        split_ifs at h with hb
        exact ⟨nx, ny, nz, k, hx, hy, hz, hk, hqu, by simpa using hb, hq⟩
    · cases h

/-! ## One sphere -/

open Classical in
/-- One sphere: the cells whose middle lies within the radius of the centre have the phase, orientation and composition for the inside, all
others those for the outside; the centre is the middle of the domain and the radius `nx/4` unless given. -/
theorem c150_one {o : Opts} {draw : ℕ → Draw} {d : Data} (h : Writes o draw d) (hk : o.kind = some .one) {nx ny nz : ℕ}
    (hx : size o.ncells o.nx = some nx) (hy : size o.ncells o.ny = some ny) (hz : size o.ncells o.nz = some nz) (i j k : ℕ) :
    let W := Within (centre o.cx nx) (centre o.cy ny) (centre o.cz nz) (match o.radius with | some r => (r : ℝ) | none => nx / 4) i j k
    d.phase i j k = (if W then o.phaseIn else o.phaseOut) ∧ d.conc i j k = (if W then o.concIn else o.concOut)
      ∧ d.quat i j k = (if W then some o.orientIn else o.orientOut) := by
  intro W
  obtain ⟨nx', ny', nz', k', hx', hy', hz', hk', hqu, hb, hq⟩ := writes_inv h
  have ek : k' = .one := by rw [hk] at hk'; exact (Option.some.inj hk').symm
  subst ek
  have e := run_eq hq hx hy hz hk hqu hb draw
  unfold Writes at h
  rw [h] at e
  simp only [finish, Result.file.injEq] at e
  subst e
  have hW : Ball.Has ⟨centre o.cx nx, centre o.cy ny, centre o.cz nz, o.rad nx .one, o.orientIn⟩ i j k ↔ W := by
    rw [has_iff]
    simp only [W]
    have : o.rad nx .one = (match o.radius with | some r => (r : ℝ) | none => nx / 4) := by
      unfold Opts.rad; cases o.radius <;> rfl
    rw [this]
  unfold fill
  simp only [List.foldl_cons, List.foldl_nil, hW]
  exact ⟨trivial, trivial, trivial⟩

/-- One sphere is written for every size and angle, when no orientation is given as text. -/
theorem c150_writes_partial {o : Opts} {nx ny nz : ℕ} (hq : o.qlen = 4 ∨ o.qlen = 2 ∨ o.qlen = 1) (hx : size o.ncells o.nx = some nx)
    (hy : size o.ncells o.ny = some ny) (hz : size o.ncells o.nz = some nz) (h2 : o.two = false) (hr : o.random = none)
    (hqu : o.quatIn = false ∧ o.quatInTwo = false ∧ o.quatOut = false) (ha : o.angleIn = none ∧ o.angleInTwo = none ∧ o.angleOut = none)
    (draw : ℕ → Draw) : ∃ d, Writes o draw d := by
  have hk : o.kind = some .one := by unfold Opts.kind; rw [h2, hr]; rfl
  have h1 : o.quats = none := by unfold Opts.quats; rw [hqu.1, hqu.2.1, hqu.2.2]; rfl
  have h3 : o.badAngles .one = false := by unfold Opts.badAngles; rw [ha.1, ha.2.1, ha.2.2]; rfl
  exact ⟨_, run_eq hq hx hy hz hk h1 h3 draw⟩

/-- Without a given centre the sphere is symmetric under the reflections of the domain. -/
theorem c150_symmetric {nx ny nz i j k : ℕ} (hi : i < nx) (r : ℝ) :
    Within (centre none nx) (centre none ny) (centre none nz) r (nx - 1 - i) j k ↔ Within (centre none nx) (centre none ny) (centre none nz) r i j k := by
  unfold Within centre
  have : ((nx - 1 - i : ℕ) : ℝ) = nx - 1 - i := by
    rw [Nat.cast_sub (by omega), Nat.cast_sub (by omega)]; norm_num
  rw [this]
  have e : ((nx:ℝ) - 1 - i + 1 / 2 - (nx:ℝ) / 2) ^ 2 = ((i:ℝ) + 1 / 2 - (nx:ℝ) / 2) ^ 2 := by ring
  rw [e]

/-- Violation: `--cx` is announced as a shift of the centre; it is the centre itself.  The two agree only in the empty domain. -/
theorem c150_violation_shift (c : ℤ) (nx : ℕ) : centre (some c) nx = centre none nx + c ↔ nx = 0 := by
  unfold centre
  constructor
  · intro h
    have : (nx:ℝ) = 0 := by linarith
    exact_mod_cast this
  · rintro rfl; simp

/-! ## Two spheres and texts of orientations -/

/-- Violation: with `--two` no file is ever written. -/
theorem c150_violation_two {o : Opts} (h2 : o.two = true) (draw : ℕ → Draw) : ¬ ∃ d, Writes o draw d := by
  rintro ⟨d, h⟩
  obtain ⟨nx, ny, nz, k, hx, hy, hz, hk, hqu, hb, hq⟩ := writes_inv h
  have ek : k = .two := by
    unfold Opts.kind at hk
    rw [h2] at hk
    simp only [if_true] at hk
    split_ifs at hk
    exact (Option.some.inj hk).symm
  subst ek
  have e := run_eq hq hx hy hz hk hqu hb draw
  unfold Writes at h
  rw [h] at e
  cases e

/-- Violation: with `--two` and otherwise accepted options the script fails after it has emptied the file. -/
theorem c150_violation_emptied {o : Opts} {nx ny nz : ℕ} (hq : o.qlen = 4 ∨ o.qlen = 2 ∨ o.qlen = 1) (hx : size o.ncells o.nx = some nx)
    (hy : size o.ncells o.ny = some ny) (hz : size o.ncells o.nz = some nz) (h2 : o.two = true) (h1 : o.one = false) (hr : o.random = none)
    (hqu : o.quatIn = false ∧ o.quatInTwo = false ∧ o.quatOut = false) (ha : o.angleIn = none ∧ o.angleInTwo = none ∧ o.angleOut = none)
    (draw : ℕ → Draw) : run o draw = .raises true := by
  have hk : o.kind = some .two := by unfold Opts.kind; rw [h2, hr, h1]; rfl
  have h4 : o.quats = none := by unfold Opts.quats; rw [hqu.1, hqu.2.1, hqu.2.2]; rfl
  have h3 : o.badAngles .two = false := by unfold Opts.badAngles; rw [ha.1, ha.2.1, ha.2.2]; rfl
  exact run_eq hq hx hy hz hk h4 h3 draw

example : run { two := true, ncells := some 32 } (fun _ => ⟨0, 0, 0, 0, 0⟩) = .raises true :=
  c150_violation_emptied (nx := 32) (ny := 32) (nz := 32) (Or.inl rfl) rfl rfl rfl rfl rfl rfl ⟨rfl, rfl, rfl⟩ ⟨rfl, rfl, rfl⟩ _

/-- Violation: with an orientation given as text no file is ever written. -/
theorem c150_violation_quat {o : Opts} (hqu : o.quatIn = true ∨ o.quatInTwo = true ∨ o.quatOut = true) (draw : ℕ → Draw) :
    ¬ ∃ d, Writes o draw d := by
  rintro ⟨d, h⟩
  obtain ⟨nx, ny, nz, k, hx, hy, hz, hk, hn, hb, hq⟩ := writes_inv h
  unfold Opts.quats at hn
  have : (o.quatIn || o.quatInTwo || o.quatOut) = true := by rcases hqu with h | h | h <;> simp [h]
  rw [if_pos this] at hn
  split_ifs at hn

/-! ## Orientations -/

theorem in4_eq (a : ℝ) : in4 a = ⟨q0 a, q1 a, 0, 0⟩ ∧ q0 a ^ 2 + q1 a ^ 2 = 1 := by
  have hs : q0 a ^ 2 + q1 a ^ 2 = 1 := by
    unfold q1
    rw [Real.sq_sqrt]
    · ring
    · have := Real.cos_sq_le_one ((Real.pi / 180) * (a / 2)); unfold q0; nlinarith
  refine ⟨?_, hs⟩
  have hm : magnitude4 ⟨q0 a, q1 a, 0, 0⟩ = 1 := by
    unfold magnitude4
    rw [show (0 + q0 a * q0 a + q1 a * q1 a + 0 * 0 + 0 * 0 : ℝ) = 1 by nlinarith, Real.sqrt_one]
  unfold in4 normalize4
  rw [hm, if_neg (by norm_num)]
  simp

theorem in2_eq (a : ℝ) : in2 a = ⟨q0 a, q1 a⟩ := by
  have hm : magnitude2 ⟨q0 a, q1 a⟩ = 1 := by
    unfold magnitude2
    rw [show (0 + q0 a * q0 a + q1 a * q1 a : ℝ) = 1 by nlinarith [(in4_eq a).2], Real.sqrt_one]
  unfold in2 normalize2
  rw [hm, if_neg (by norm_num)]
  simp

theorem out4_eq : out4 = ⟨1, 0, 0, 0⟩ := by
  have hm : magnitude4 ⟨1, 0, 0, 0⟩ = 1 := by unfold magnitude4; norm_num
  unfold out4 normalize4
  rw [hm, if_neg (by norm_num)]
  simp

theorem out2_eq : out2 = ⟨1, 0⟩ := by
  have hm : magnitude2 ⟨1, 0⟩ = 1 := by unfold magnitude2; norm_num
  unfold out2 normalize2
  rw [hm, if_neg (by norm_num)]
  simp

/-- `qlen` 4: the rotation between outside and inside, as `quatAngle` of the project measures it, is the angle asked for (0 to 360 degrees). -/
theorem c150_angle4 {a : ℝ} (h0 : 0 ≤ a) (h1 : a ≤ 360) :
    PyQuat.angle (magnitude4 ⟨(in4 a).q1 - out4.q1, (in4 a).q2 - out4.q2, (in4 a).q3 - out4.q3, (in4 a).q4 - out4.q4⟩) = deg a := by
  obtain ⟨e, hs⟩ := in4_eq a
  have hpi := Real.pi_pos
  refine c145_angle out4 (in4 a) ?_ ?_ (deg a) ?_ ?_ ?_
  · rw [out4_eq]; unfold lenSq; norm_num
  · rw [e]; unfold lenSq; simp only; nlinarith
  · unfold deg; positivity
  · unfold deg; nlinarith
  · rw [e, out4_eq]
    unfold inner4
    simp only
    have : deg a / 2 = (Real.pi / 180) * (a / 2) := by unfold deg; ring
    rw [this]
    unfold q0
    ring

/-- `qlen` 1: the angle inside differs from the angle outside by the angle asked for. -/
theorem c150_angle1 {o : Opts} (hq : o.qlen = 1) (hs : o.simple = true) (a : ℝ) (ha : o.angle = some a) :
    o.orientIn = [deg a] ∧ o.orientOut = some [0] := by
  unfold Opts.orientIn Opts.orientOut Opts.ang
  rw [hs, hq, ha]
  simp [deg]

/-- Violation: `qlen` 2: the rotation between outside and inside, as `quatAngle2` of the project measures it, is half the angle asked for. -/
theorem c150_violation_half {a : ℝ} (h0 : 0 ≤ a) (h1 : a ≤ 360) :
    PyQuat.angle2 (magnitude2 ⟨(in2 a).q1 - out2.q1, (in2 a).q2 - out2.q2⟩) = deg a / 2 := by
  have hpi := Real.pi_pos
  have hs := (in4_eq a).2
  refine c145_angle2 out2 (in2 a) ?_ ?_ (deg a / 2) ?_ ?_ ?_
  · rw [out2_eq]; norm_num
  · rw [in2_eq]; exact hs
  · unfold deg; positivity
  · unfold deg; nlinarith
  · rw [in2_eq, out2_eq]
    unfold inner2
    simp only
    have : deg a / 2 = (Real.pi / 180) * (a / 2) := by unfold deg; ring
    rw [this]
    unfold q0
    ring

/-- Violation: for `qlen` 4 and 2 a negative angle gives the same orientation as the positive one. -/
theorem c150_violation_sign (a : ℝ) : in4 (-a) = in4 a ∧ in2 (-a) = in2 a := by
  have h : q0 (-a) = q0 a := by
    unfold q0
    rw [show (Real.pi / 180) * (-a / 2) = -((Real.pi / 180) * (a / 2)) by ring, Real.cos_neg]
  have h' : q1 (-a) = q1 a := by unfold q1; rw [h]
  rw [(in4_eq _).1, (in4_eq a).1, in2_eq, in2_eq, h, h']
  exact ⟨rfl, rfl⟩

/-! ## Random spheres -/

theorem round_bounds (x : ℝ) : x - 1 / 2 ≤ pyRound x ∧ (pyRound x : ℝ) ≤ x + 1 / 2 := by
  have h1 := Int.floor_le x
  have h2 := Int.lt_floor_add_one x
  unfold pyRound
  split_ifs <;> push_cast <;> constructor <;> linarith

theorem round_le {x : ℝ} {n : ℤ} (h : x ≤ n) : pyRound x ≤ n := by
  have h1 := (round_bounds x).2
  by_contra hc
  push Not at hc
  have h3 : ((n:ℝ) + 1) ≤ pyRound x := by exact_mod_cast hc
  linarith

theorem le_round {x : ℝ} {n : ℤ} (h : (n:ℝ) ≤ x) : n ≤ pyRound x := by
  have h1 := (round_bounds x).1
  by_contra hc
  push Not at hc
  have h3 : (pyRound x : ℝ) ≤ n - 1 := by
    have : pyRound x ≤ n - 1 := by omega
    exact_mod_cast this
  linarith

theorem maxRadius_le (nx ny nz : ℕ) : maxRadius nx ny nz ≤ nx / 6 ∧ maxRadius nx ny nz ≤ ny / 6 ∧ (12 ≤ nz → maxRadius nx ny nz ≤ nz / 6)
    ∧ 0 ≤ maxRadius nx ny nz := by
  unfold maxRadius
  split_ifs with h
  · exact ⟨min_le_left _ _, min_le_right _ _, fun h' => by omega, le_min (by positivity) (by positivity)⟩
  · exact ⟨(min_le_left _ _).trans (min_le_left _ _), (min_le_left _ _).trans (min_le_right _ _), fun _ => min_le_right _ _,
      le_min (le_min (by positivity) (by positivity)) (by positivity)⟩

theorem radius_bounds {nx ny nz : ℕ} {u : ℝ} (h0 : 0 ≤ u) (h1 : u ≤ 1) :
    0 ≤ randomRadius nx ny nz u ∧ (randomRadius nx ny nz u ≤ 2 ∨ (randomRadius nx ny nz u : ℝ) ≤ maxRadius nx ny nz + 1 / 2) := by
  have hm := (maxRadius_le nx ny nz).2.2.2
  unfold randomRadius
  constructor
  · have : (-2 : ℤ) ≤ pyRound ((maxRadius nx ny nz - 2) * u) := le_round (by push_cast; nlinarith)
    omega
  · rcases le_total (maxRadius nx ny nz) 2 with h | h
    · left
      have : pyRound ((maxRadius nx ny nz - 2) * u) ≤ 0 := round_le (by push_cast; nlinarith)
      omega
    · right
      have := (round_bounds ((maxRadius nx ny nz - 2) * u)).2
      push_cast
      nlinarith

theorem centre_bounds {n : ℕ} {r : ℤ} (hr : 2 * r ≤ n) {u : ℝ} (h0 : 0 ≤ u) (h1 : u ≤ 1) : r ≤ randomCentre n r u ∧ randomCentre n r u ≤ n - r := by
  have hr' : (2 * r : ℝ) ≤ n := by exact_mod_cast hr
  unfold randomCentre
  have e1 : (0:ℤ) ≤ pyRound (((n:ℝ) - 2 * r) * u) := le_round (by push_cast; exact mul_nonneg (by linarith) h0)
  have e2 : pyRound (((n:ℝ) - 2 * r) * u) ≤ n - 2 * r := round_le (by push_cast; nlinarith)
  constructor <;> omega

theorem twice_le {n : ℕ} (hn : 4 ≤ n) {m : ℝ} (hm : m ≤ n / 6) {r : ℤ} (h : r ≤ 2 ∨ (r : ℝ) ≤ m + 1 / 2) : 2 * r ≤ n := by
  rcases h with h | h
  · omega
  · have hn' : (4:ℝ) ≤ n := by exact_mod_cast hn
    have : (2 * r : ℝ) ≤ n := by linarith
    exact_mod_cast this

/-- Random spheres lie inside the domain in x and y (and in z when there are at least 12 planes; else their centre is in the middle), for
every draw. -/
theorem c150_random {nx ny nz : ℕ} (hx : 4 ≤ nx) (hy : 4 ≤ ny) {qlen : ℤ} {d : Draw} (hd : Unit01 d) {b : Ball}
    (hb : randomBall nx ny nz qlen d = some b) :
    0 ≤ b.r ∧ b.r ≤ b.cx ∧ b.cx ≤ nx - b.r ∧ b.r ≤ b.cy ∧ b.cy ≤ ny - b.r
      ∧ (if nz < 12 then b.cz = nz / 2 else b.r ≤ b.cz ∧ b.cz ≤ nz - b.r) := by
  obtain ⟨⟨r0, r1⟩, ⟨x0, x1⟩, ⟨y0, y1⟩, ⟨z0, z1⟩, -⟩ := hd
  obtain ⟨hr0, hr1⟩ := radius_bounds (nx := nx) (ny := ny) (nz := nz) r0 r1
  obtain ⟨m1, m2, m3, -⟩ := maxRadius_le nx ny nz
  have key : b.r = randomRadius nx ny nz d.r ∧ b.cx = randomCentre nx (randomRadius nx ny nz d.r) d.x
      ∧ b.cy = randomCentre ny (randomRadius nx ny nz d.r) d.y
      ∧ b.cz = if nz < 12 then (nz:ℝ) / 2 else randomCentre nz (randomRadius nx ny nz d.r) d.z := by
    unfold randomBall at hb
    dsimp only at hb
    split_ifs at hb with h1 h2 h2
    all_goals
      obtain rfl := Option.some.inj hb
      simp_all
  obtain ⟨e1, e2, e3, e4⟩ := key
  generalize randomRadius nx ny nz d.r = r at *
  have cx := centre_bounds (twice_le hx m1 hr1) x0 x1
  have cy := centre_bounds (twice_le hy m2 hr1) y0 y1
  rw [e1, e2, e3, e4]
  refine ⟨by exact_mod_cast hr0, by exact_mod_cast cx.1, by exact_mod_cast cx.2, by exact_mod_cast cy.1, by exact_mod_cast cy.2, ?_⟩
  split_ifs with hz
  · rfl
  · push Not at hz
    have cz := centre_bounds (twice_le (by omega) (m3 hz) hr1) z0 z1
    exact ⟨by exact_mod_cast cz.1, by exact_mod_cast cz.2⟩

/-- In a domain of at least 12 cells in x and y the radius of a random sphere is at least 2. -/
theorem c150_random_radius {nx ny nz : ℕ} (hx : 12 ≤ nx) (hy : 12 ≤ ny) {u : ℝ} (h0 : 0 ≤ u) : 2 ≤ randomRadius nx ny nz u := by
  have hm : 2 ≤ maxRadius nx ny nz := by
    have hx' : (12:ℝ) ≤ nx := by exact_mod_cast hx
    have hy' : (12:ℝ) ≤ ny := by exact_mod_cast hy
    unfold maxRadius
    split_ifs with h
    · exact le_min (by linarith) (by linarith)
    · have hz : (12:ℝ) ≤ nz := by exact_mod_cast not_lt.mp h
      exact le_min (le_min (by linarith) (by linarith)) (by linarith)
  unfold randomRadius
  have : (0:ℤ) ≤ pyRound ((maxRadius nx ny nz - 2) * u) := le_round (by push_cast; exact mul_nonneg (by linarith) h0)
  omega

/-- Violation: with the default length of the orientation no file with random spheres is ever written. -/
theorem c150_violation_random {o : Opts} (hq : o.qlen = 4) {n : ℕ} (hr : o.random = some (n + 1)) (draw : ℕ → Draw) :
    ¬ ∃ d, Writes o draw d := by
  rintro ⟨d, h⟩
  obtain ⟨nx, ny, nz, k, hx, hy, hz, hk, hn, hb, hq'⟩ := writes_inv h
  have e := run_eq hq' hx hy hz hk hn hb draw
  unfold Writes at h
  rw [h] at e
  have ek : k = .random (n + 1) ∨ k = .two := by
    unfold Opts.kind at hk
    rw [hr] at hk
    simp only at hk
    split_ifs at hk
    all_goals first
      | exact Or.inl (Option.some.inj hk).symm
      | exact Or.inr (Option.some.inj hk).symm
  rcases ek with rfl | rfl
  · have : randomBalls nx ny nz o.qlen draw (n + 1) = none := by
      unfold randomBalls
      rw [List.range_succ_eq_map, List.mapM_cons]
      have : randomBall nx ny nz o.qlen (draw 0) = none := by
        unfold randomBall
        rw [hq]
        simp
      rw [this]; rfl
    simp only [finish, this] at e
    cases e
  · cases e

/-- One sphere in 32³ cells with all defaults: the cell at the middle is inside. -/
example : ∃ d, Writes { ncells := some 32 } (fun _ => ⟨0, 0, 0, 0, 0⟩) d ∧ d.phase 16 16 16 = 1 ∧ d.phase 0 0 0 = 0 := by
  obtain ⟨d, h⟩ := c150_writes_partial (o := { ncells := some 32 }) (nx := 32) (ny := 32) (nz := 32) (Or.inl rfl) rfl rfl rfl rfl rfl
    ⟨rfl, rfl, rfl⟩ ⟨rfl, rfl, rfl⟩ (fun _ => ⟨0, 0, 0, 0, 0⟩)
  refine ⟨d, h, ?_, ?_⟩
  · rw [(c150_one h rfl (nx := 32) (ny := 32) (nz := 32) rfl rfl rfl 16 16 16).1]
    rw [if_pos]
    simp only [Within, centre]; norm_num
  · rw [(c150_one h rfl (nx := 32) (ny := 32) (nz := 32) rfl rfl rfl 0 0 0).1]
    rw [if_neg]
    simp only [Within, centre]; norm_num

/-- **C150** The number of cells of an axis is the one given for it, else the common one; zero or none ends the script. -/
theorem c150_size (ncells n : Option ℕ) (k : ℕ) : size ncells n = some k ↔ 0 < k ∧ (n = some k ∨ n = none ∧ ncells = some k) := by
  rcases n with _ | _ | m <;> rcases ncells with _ | _ | c <;> simp [size] <;> omega

/-- With one sphere the angles are accepted exactly when none is given, or the one inside and the one outside (and no second one) for `qlen`
1: one angle alone is refused. -/
theorem c150_angles_one (o : Opts) : o.badAngles .one = false ↔ (o.angleIn = none ∧ o.angleInTwo = none ∧ o.angleOut = none)
    ∨ o.qlen = 1 ∧ o.angleIn ≠ none ∧ o.angleInTwo = none ∧ o.angleOut ≠ none := by
  unfold Opts.badAngles
  rcases o.angleIn with _ | a <;> rcases o.angleInTwo with _ | b <;> rcases o.angleOut with _ | c <;> simp

/-- The angle of `--angle` is used for the inside exactly when no other angle is given; any of them switches it off. -/
theorem c150_angle_used (o : Opts) : o.simple = true ↔ o.angleIn = none ∧ o.angleInTwo = none ∧ o.angleOut = none := by
  unfold Opts.simple
  rcases o.angleIn with _ | a <;> rcases o.angleInTwo with _ | b <;> rcases o.angleOut with _ | c <;> simp

/-- Centres half-way between two nodes go to the even one. -/
theorem c150_round_half (n : ℤ) : Even (pyRound (n + 1 / 2)) ∧ |((pyRound (n + 1 / 2) : ℤ) : ℝ) - (n + 1 / 2)| = 1 / 2 := by
  have hf : ⌊(n : ℝ) + 1 / 2⌋ = n := by
    rw [Int.floor_eq_iff]; constructor <;> linarith
  unfold pyRound
  rw [hf]
  have e : (n : ℝ) + 1 / 2 - n = 1 / 2 := by ring
  rw [e, if_neg (lt_irrefl _), if_neg (lt_irrefl _)]
  split_ifs with h
  · refine ⟨h, ?_⟩
    rw [show (n : ℝ) - (n + 1 / 2) = -(1 / 2) by ring, abs_neg, abs_of_pos (by norm_num)]
  · refine ⟨by rw [Int.even_add_one]; exact h, ?_⟩
    push_cast
    rw [show (n : ℝ) + 1 - (n + 1 / 2) = 1 / 2 by ring, abs_of_pos (by norm_num)]

end AMPE.Sphere.Props
