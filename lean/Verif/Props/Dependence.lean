import Verif.Props.Convergence
import Verif.Props.MultiBounds

/-!
# C143: two runs from nearby data stay close, whatever the mesh
-/

namespace AMPE.Dependence.Props

open AMPE.Functions AMPE.Flux AMPE.PhaseRHS AMPE.Alloy AMPE.PhaseBounds AMPE.PhaseBounds.Props AMPE.HeatOrder AMPE.HeatOrder.Props AMPE.Converge
open AMPE.Convergence.Props AMPE.MultiBounds AMPE.MultiBounds.Props Set

/-! ## Boundaries -/

/-- The cells around a cell hold copies of cells of the domain; `σ` says which (periodic sides: the index modulo the size; sides
without flux: the nearest cell of the domain). -/
def Copies2 (cells : Finset (ℤ × ℤ)) (σ : ℤ × ℤ → ℤ × ℤ) (phi : Field2) : Prop :=
  ∀ c ∈ cells, ∀ a b : ℤ, -1 ≤ a → a ≤ 1 → -1 ≤ b → b ≤ 1 →
    σ (c.1 + a, c.2 + b) ∈ cells ∧ phi (c.1 + a) (c.2 + b) = phi (σ (c.1 + a, c.2 + b)).1 (σ (c.1 + a, c.2 + b)).2

def Copies3 (cells : Finset (ℤ × ℤ × ℤ)) (σ : ℤ × ℤ × ℤ → ℤ × ℤ × ℤ) (phi : Field3) : Prop :=
  ∀ p ∈ cells, ∀ a b c : ℤ, -1 ≤ a → a ≤ 1 → -1 ≤ b → b ≤ 1 → -1 ≤ c → c ≤ 1 →
    σ (p.1 + a, p.2.1 + b, p.2.2 + c) ∈ cells ∧ phi (p.1 + a) (p.2.1 + b) (p.2.2 + c)
      = phi (σ (p.1 + a, p.2.1 + b, p.2.2 + c)).1 (σ (p.1 + a, p.2.1 + b, p.2.2 + c)).2.1 (σ (p.1 + a, p.2.1 + b, p.2.2 + c)).2.2

theorem closed_of_copies2 {cells : Finset (ℤ × ℤ)} {σ : ℤ × ℤ → ℤ × ℤ} {phi : Field2} (h : Copies2 cells σ phi) (lo hi : ℝ) :
    Closed2 lo hi cells phi := fun c hc a b a1 a2 b1 b2 => Or.inl ⟨_, h c hc a b a1 a2 b1 b2⟩

theorem closed_of_copies3 {cells : Finset (ℤ × ℤ × ℤ)} {σ : ℤ × ℤ × ℤ → ℤ × ℤ × ℤ} {phi : Field3} (h : Copies3 cells σ phi) (lo hi : ℝ) :
    Closed3 lo hi cells phi := fun p hp a b c a1 a2 b1 b2 c1 c2 => Or.inl ⟨_, h p hp a b c a1 a2 b1 b2 c1 c2⟩

theorem copies_sub2 {cells : Finset (ℤ × ℤ)} {σ : ℤ × ℤ → ℤ × ℤ} {u w : Field2} (hu : Copies2 cells σ u) (hw : Copies2 cells σ w) :
    ∀ c ∈ cells, ∀ a b : ℤ, -1 ≤ a → a ≤ 1 → -1 ≤ b → b ≤ 1 →
      ∃ q ∈ cells, u (c.1 + a) (c.2 + b) - w (c.1 + a) (c.2 + b) = u q.1 q.2 - w q.1 q.2 := fun c hc a b a1 a2 b1 b2 =>
  ⟨_, (hu c hc a b a1 a2 b1 b2).1, by rw [(hu c hc a b a1 a2 b1 b2).2, (hw c hc a b a1 a2 b1 b2).2]⟩

theorem copies_sub3 {cells : Finset (ℤ × ℤ × ℤ)} {σ : ℤ × ℤ × ℤ → ℤ × ℤ × ℤ} {u w : Field3} (hu : Copies3 cells σ u) (hw : Copies3 cells σ w) :
    ∀ p ∈ cells, ∀ a b c : ℤ, -1 ≤ a → a ≤ 1 → -1 ≤ b → b ≤ 1 → -1 ≤ c → c ≤ 1 →
      ∃ q ∈ cells, u (p.1 + a) (p.2.1 + b) (p.2.2 + c) - w (p.1 + a) (p.2.1 + b) (p.2.2 + c) = u q.1 q.2.1 q.2.2 - w q.1 q.2.1 q.2.2 :=
  fun p hp a b c a1 a2 b1 b2 c1 c2 => ⟨_, (hu p hp a b c a1 a2 b1 b2 c1 c2).1, by
    rw [(hu p hp a b c a1 a2 b1 b2 c1 c2).2, (hw p hp a b c a1 a2 b1 b2 c1 c2).2]⟩

/-! ## One cell -/

theorem slopeH_le (interp : Char) {y : ℝ} (h0 : 0 ≤ y) (h1 : y ≤ 1) : |slopeH interp y| ≤ 15 / 8 := by
  have q0 : 0 ≤ y * (1 - y) := mul_nonneg h0 (sub_nonneg.2 h1)
  have q1 : y * (1 - y) ≤ 1 / 4 := by nlinarith [sq_nonneg (2 * y - 1)]
  unfold slopeH
  split_ifs
  · have e : 30 * y ^ 2 * (1 - y) ^ 2 = 30 * ((y * (1 - y)) * (y * (1 - y))) := by ring
    rw [e, abs_of_nonneg (by positivity)]
    have := mul_le_mul q1 q1 q0 (by norm_num)
    linarith
  · have e : 6 * y * (1 - y) = 6 * (y * (1 - y)) := by ring
    rw [e, abs_of_nonneg (by positivity)]
    linarith

/-- Two cells of different phase, driving force and mobility. -/
theorem cell_close (interp : Char) {scale d1 d2 D δ M m1 m2 A R κ a b : ℝ} (hs : 0 ≤ scale) (hD : |d1| ≤ D) (hδ : |d1 - d2| ≤ δ)
    (m0 : 0 ≤ m1) (mM : m1 ≤ M) (a0 : 0 ≤ a) (a1 : a ≤ 1) (b0 : 0 ≤ b) (b1 : b ≤ 1)
    (hκ : |(m1 - m2) * (R + reaction interp scale d2 b)| ≤ κ) :
    |(m1 * (A + reaction interp scale d1 a) - m2 * (R + reaction interp scale d2 b)) - m1 * (A - R)|
      ≤ M * (32 * scale + 15 * D) * |a - b| + (M * (15 / 8 * δ) + κ) := by
  have hM : 0 ≤ M := m0.trans mM
  have hδ0 : 0 ≤ δ := (abs_nonneg _).trans hδ
  have lip := reaction_lip interp hs hD a0 a1 b0 b1
  have e : (m1 * (A + reaction interp scale d1 a) - m2 * (R + reaction interp scale d2 b)) - m1 * (A - R)
      = m1 * (reaction interp scale d1 a - reaction interp scale d1 b) + m1 * (slopeH interp b * (d1 - d2))
        + (m1 - m2) * (R + reaction interp scale d2 b) := by unfold reaction; ring
  rw [e]
  have t1 : |m1 * (reaction interp scale d1 a - reaction interp scale d1 b)| ≤ M * (32 * scale + 15 * D) * |a - b| := by
    rw [abs_mul, abs_of_nonneg m0, mul_assoc]
    exact mul_le_mul mM lip (abs_nonneg _) hM
  have t2 : |m1 * (slopeH interp b * (d1 - d2))| ≤ M * (15 / 8 * δ) := by
    rw [abs_mul, abs_of_nonneg m0, abs_mul]
    exact mul_le_mul mM (mul_le_mul (slopeH_le interp b0 b1) hδ (abs_nonneg _) (by norm_num)) (by positivity) hM
  have t3 := abs_add_le (m1 * (reaction interp scale d1 a - reaction interp scale d1 b) + m1 * (slopeH interp b * (d1 - d2)))
    ((m1 - m2) * (R + reaction interp scale d2 b))
  have t4 := abs_add_le (m1 * (reaction interp scale d1 a - reaction interp scale d1 b)) (m1 * (slopeH interp b * (d1 - d2)))
  linarith

/-! ## The phase -/

/-- A run of the phase equation: what changes between the two runs. -/
structure Run2 where
  fl : ℝ → Field2
  fa : ℝ → Field2
  mob : ℝ → Field2
  phi : ℝ → Field2

/-- What is asked of each run: `phi` starts between zero and one and follows the equation with the energies and mobility of the run. -/
structure Run2.Ok (R : Run2) (S : Setting) (st : Stencil) (fr : ℝ → Frame) (eps dx dy : ℝ) (temp ogm : ℝ → Field2) (cells : Finset (ℤ × ℤ))
    (σ : ℤ × ℤ → ℤ × ℤ) (T M D : ℝ) : Prop where
  mob : ∀ t ∈ Icc 0 T, ∀ c ∈ cells, 0 ≤ R.mob t c.1 c.2 ∧ R.mob t c.1 c.2 ≤ M
  drop : ∀ t ∈ Icc 0 T, ∀ c ∈ cells, |R.fl t c.1 c.2 - R.fa t c.1 c.2| ≤ D
  frame : ∀ t ∈ Icc 0 T, ∀ c ∈ cells, FrameOk (fr t) dx eps (share st dx dy) (R.mob t c.1 c.2)
  sides : ∀ t ∈ Icc 0 T, Copies2 cells σ (R.phi t)
  solves : Solves2 S st fr eps dx dy (fun t i j => .energies (R.fl t i j) (R.fa t i j)) R.mob temp ogm cells T R.phi
  start : ∀ c ∈ cells, 0 ≤ R.phi 0 c.1 c.2 ∧ R.phi 0 c.1 c.2 ≤ 1

theorem Run2.Ok.between {R : Run2} {S : Setting} (hi : S.interp = 'p' ∨ S.interp = 'h') (ho : S.orient = false) (hsc : 0 ≤ S.scale)
    {st : Stencil} {fr : ℝ → Frame} {eps dx dy : ℝ} (hdx : 0 < dx) (hdy : 0 < dy)
    (hst : st = .isotropic → dx * dx ≤ 5 * (dy * dy) ∧ dy * dy ≤ 5 * (dx * dx)) {temp ogm : ℝ → Field2} {cells : Finset (ℤ × ℤ)}
    {σ : ℤ × ℤ → ℤ × ℤ} {T M D : ℝ} (h : R.Ok S st fr eps dx dy temp ogm cells σ T M D) :
    ∀ t ∈ Icc 0 T, ∀ c ∈ cells, 0 ≤ R.phi t c.1 c.2 ∧ R.phi t c.1 c.2 ≤ 1 :=
  c131_between_2d_partial { S with misor := 0 } ⟨hi, hsc, fun h => by rw [ho] at h; cases h⟩ st fr eps dx dy hdx hdy hst
    (fun t i j => .energies (R.fl t i j) (R.fa t i j)) R.mob temp (fun _ _ _ => 0) cells T R.phi (fun t ht c hc => (h.mob t ht c hc).1)
    (fun t ht c hc => by simp) (fun t ht c hc => le_rfl) h.frame ⟨0, fun t ht c hc => by simp [slant]⟩
    (fun t ht => closed_of_copies2 (h.sides t ht) 0 1)
    (fun t ht c hc => by
      obtain ⟨r, hr, hd⟩ := h.solves t ht c hc
      refine ⟨r, ?_, hd⟩
      rw [← hr]
      simp [rate2, cellRate, pbgCell, ho]) h.start

/-- What drives the phase in a cell, before the mobility: `epsilon^2 lap phi - s W'(phi) + h'(phi) (fL - fS)`. -/
noncomputable def Run2.push (R : Run2) (S : Setting) (st : Stencil) (eps dx dy t : ℝ) (c : ℤ × ℤ) : ℝ :=
  diffTerm2 st eps dx dy (R.phi t) c.1 c.2 + reaction S.interp S.scale (R.fl t c.1 c.2 - R.fa t c.1 c.2) (R.phi t c.1 c.2)

theorem Run2.Ok.rate {R : Run2} {S : Setting} (hi : S.interp = 'p' ∨ S.interp = 'h') (ho : S.orient = false) (hsc : 0 ≤ S.scale)
    {st : Stencil} {fr : ℝ → Frame} {eps dx dy : ℝ} (hdx : 0 < dx) (hdy : 0 < dy)
    (hst : st = .isotropic → dx * dx ≤ 5 * (dy * dy) ∧ dy * dy ≤ 5 * (dx * dx)) {temp ogm : ℝ → Field2} {cells : Finset (ℤ × ℤ)}
    {σ : ℤ × ℤ → ℤ × ℤ} {T M D : ℝ} (h : R.Ok S st fr eps dx dy temp ogm cells σ T M D) :
    ∀ t ∈ Icc 0 T, ∀ c ∈ cells, HasDerivAt (fun s => R.phi s c.1 c.2)
      (R.mob t c.1 c.2 * R.push S st eps dx dy t c + frameTerm (fr t) dx (fun a => R.phi t a c.2) c.1) t := fun t ht c hc => by
  obtain ⟨r, hr, hd⟩ := h.solves t ht c hc
  obtain ⟨i1, i2⟩ := h.between hi ho hsc hdx hdy hst t ht c hc
  unfold rate2 at hr
  rw [cellRate_eq S hi ho _ _ _ _ _ _ _ i1 i2, Option.map_some, Option.some.injEq] at hr
  rw [← hr] at hd
  exact hd

/-- **C143** (2D): two runs on the same mesh whose initial phases differ by at most `E`, whose driving forces differ by at most `δ`, and
whose mobilities change what moves the second run by at most `κ`, differ at time `t` by at most
`(E + (15/8 M δ + κ) t) exp (M (32 s + 15 D) t)`: a bound in which neither the size nor the number of cells occurs. -/
theorem c143_phase_2d (S : Setting) (hi : S.interp = 'p' ∨ S.interp = 'h') (ho : S.orient = false) (hsc : 0 ≤ S.scale) (st : Stencil) (fr : ℝ → Frame)
    (eps dx dy : ℝ) (hdx : 0 < dx) (hdy : 0 < dy) (hst : st = .isotropic → dx * dx ≤ 5 * (dy * dy) ∧ dy * dy ≤ 5 * (dx * dx))
    (temp temp' ogm ogm' : ℝ → Field2) (cells : Finset (ℤ × ℤ)) (σ : ℤ × ℤ → ℤ × ℤ) (T M D D' E δ κ : ℝ) (hE : 0 ≤ E) (R Q : Run2)
    (hR : R.Ok S st fr eps dx dy temp ogm cells σ T M D) (hQ : Q.Ok S st fr eps dx dy temp' ogm' cells σ T M D')
    (hδ : ∀ t ∈ Icc 0 T, ∀ c ∈ cells, |(R.fl t c.1 c.2 - R.fa t c.1 c.2) - (Q.fl t c.1 c.2 - Q.fa t c.1 c.2)| ≤ δ)
    (hκ : ∀ t ∈ Icc 0 T, ∀ c ∈ cells, |(R.mob t c.1 c.2 - Q.mob t c.1 c.2) * Q.push S st eps dx dy t c| ≤ κ)
    (h0 : ∀ c ∈ cells, |R.phi 0 c.1 c.2 - Q.phi 0 c.1 c.2| ≤ E) :
    ∀ t ∈ Icc 0 T, ∀ c ∈ cells, |R.phi t c.1 c.2 - Q.phi t c.1 c.2|
      ≤ (E + (M * (15 / 8 * δ) + κ) * t) * Real.exp (M * (32 * S.scale + 15 * D) * t) := by
  intro t0 ht0 c0 hc0
  have hT : 0 ≤ T := ht0.1.trans ht0.2
  have h0T : (0:ℝ) ∈ Icc 0 T := ⟨le_rfl, hT⟩
  have hM : 0 ≤ M := (hR.mob 0 h0T _ hc0).1.trans (hR.mob 0 h0T _ hc0).2
  have hD0 : 0 ≤ D := (abs_nonneg _).trans (hR.drop 0 h0T _ hc0)
  have hδ0 : 0 ≤ δ := (abs_nonneg _).trans (hδ 0 h0T _ hc0)
  have hκ0 : 0 ≤ κ := (abs_nonneg _).trans (hκ 0 h0T _ hc0)
  refine close2 st fr eps dx dy hdx hdy hst R.mob cells T (M * (32 * S.scale + 15 * D)) (M * (15 / 8 * δ) + κ) E (by positivity) (by positivity)
    hE R.phi Q.phi
    (fun t i j => R.mob t i j * R.push S st eps dx dy t (i, j) + frameTerm (fr t) dx (fun a => R.phi t a j) i)
    (fun t i j => Q.mob t i j * Q.push S st eps dx dy t (i, j) + frameTerm (fr t) dx (fun a => Q.phi t a j) i)
    (hmob := fun t ht c hc => (hR.mob t ht c hc).1) (hfr := hR.frame)
    (hcl := fun t ht => copies_sub2 (hR.sides t ht) (hQ.sides t ht))
    (hw := hR.rate hi ho hsc hdx hdy hst) (hp := hQ.rate hi ho hsc hdx hdy hst) (hg := fun t ht c hc => ?_) (h0 := h0) t0 ht0 c0 hc0
  obtain ⟨i1, i2⟩ := hR.between hi ho hsc hdx hdy hst t ht c hc
  obtain ⟨j1, j2⟩ := hQ.between hi ho hsc hdx hdy hst t ht c hc
  have key := cell_close S.interp (A := diffTerm2 st eps dx dy (R.phi t) c.1 c.2) hsc (hR.drop t ht c hc) (hδ t ht c hc) (hR.mob t ht c hc).1
    (hR.mob t ht c hc).2 i1 i2 j1 j2 (hκ t ht c hc)
  refine le_trans (le_of_eq (congrArg _ ?_)) key
  simp only [Run2.push]
  ring

/-- **C143** (2D): the run is determined by its data: the same initial phase, energies and mobility give the same phase at all times. -/
theorem c143_unique_2d (S : Setting) (hi : S.interp = 'p' ∨ S.interp = 'h') (ho : S.orient = false) (hsc : 0 ≤ S.scale) (st : Stencil) (fr : ℝ → Frame)
    (eps dx dy : ℝ) (hdx : 0 < dx) (hdy : 0 < dy) (hst : st = .isotropic → dx * dx ≤ 5 * (dy * dy) ∧ dy * dy ≤ 5 * (dx * dx))
    (temp temp' ogm ogm' : ℝ → Field2) (cells : Finset (ℤ × ℤ)) (σ : ℤ × ℤ → ℤ × ℤ) (T M D : ℝ) (R Q : Run2)
    (hR : R.Ok S st fr eps dx dy temp ogm cells σ T M D) (hQ : Q.Ok S st fr eps dx dy temp' ogm' cells σ T M D)
    (hf : ∀ t ∈ Icc 0 T, ∀ c ∈ cells, R.fl t c.1 c.2 - R.fa t c.1 c.2 = Q.fl t c.1 c.2 - Q.fa t c.1 c.2)
    (hm : ∀ t ∈ Icc 0 T, ∀ c ∈ cells, R.mob t c.1 c.2 = Q.mob t c.1 c.2)
    (h0 : ∀ c ∈ cells, R.phi 0 c.1 c.2 = Q.phi 0 c.1 c.2) :
    ∀ t ∈ Icc 0 T, ∀ c ∈ cells, R.phi t c.1 c.2 = Q.phi t c.1 c.2 := fun t ht c hc => by
  have := c143_phase_2d S hi ho hsc st fr eps dx dy hdx hdy hst temp temp' ogm ogm' cells σ T M D D 0 0 0 le_rfl R Q hR hQ
    (fun t ht c hc => by rw [hf t ht c hc]; simp) (fun t ht c hc => by rw [hm t ht c hc]; simp) (fun c hc => by rw [h0 c hc]; simp) t ht c hc
  have e : (0 + (M * (15 / 8 * 0) + 0) * t) * Real.exp (M * (32 * S.scale + 15 * D) * t) = 0 := by ring
  rw [e] at this
  exact sub_eq_zero.1 (abs_nonpos_iff.1 this)

/-! ## Three dimensions -/

structure Run3 where
  fl : ℝ → Field3
  fa : ℝ → Field3
  mob : ℝ → Field3
  phi : ℝ → Field3

structure Run3.Ok (R : Run3) (S : Setting) (fr : ℝ → Frame) (eps dx dy dz : ℝ) (temp ogm : ℝ → Field3) (cells : Finset (ℤ × ℤ × ℤ))
    (σ : ℤ × ℤ × ℤ → ℤ × ℤ × ℤ) (T M D : ℝ) : Prop where
  mob : ∀ t ∈ Icc 0 T, ∀ c ∈ cells, 0 ≤ R.mob t c.1 c.2.1 c.2.2 ∧ R.mob t c.1 c.2.1 c.2.2 ≤ M
  drop : ∀ t ∈ Icc 0 T, ∀ c ∈ cells, |R.fl t c.1 c.2.1 c.2.2 - R.fa t c.1 c.2.1 c.2.2| ≤ D
  frame : ∀ t ∈ Icc 0 T, ∀ c ∈ cells, FrameOk (fr t) dx eps 1 (R.mob t c.1 c.2.1 c.2.2)
  sides : ∀ t ∈ Icc 0 T, Copies3 cells σ (R.phi t)
  solves : Solves3 S .simple fr eps dx dy dz (fun t i j k => .energies (R.fl t i j k) (R.fa t i j k)) R.mob temp ogm cells T R.phi
  start : ∀ c ∈ cells, 0 ≤ R.phi 0 c.1 c.2.1 c.2.2 ∧ R.phi 0 c.1 c.2.1 c.2.2 ≤ 1

theorem Run3.Ok.between {R : Run3} {S : Setting} (hi : S.interp = 'p' ∨ S.interp = 'h') (ho : S.orient = false) (hsc : 0 ≤ S.scale)
    {fr : ℝ → Frame} {eps dx dy dz : ℝ} (hdx : 0 < dx) (hdy : 0 < dy) (hdz : 0 < dz) {temp ogm : ℝ → Field3} {cells : Finset (ℤ × ℤ × ℤ)}
    {σ : ℤ × ℤ × ℤ → ℤ × ℤ × ℤ} {T M D : ℝ} (h : R.Ok S fr eps dx dy dz temp ogm cells σ T M D) :
    ∀ t ∈ Icc 0 T, ∀ c ∈ cells, 0 ≤ R.phi t c.1 c.2.1 c.2.2 ∧ R.phi t c.1 c.2.1 c.2.2 ≤ 1 :=
  c131_between_3d_partial { S with misor := 0 } ⟨hi, hsc, fun h => by rw [ho] at h; cases h⟩ .simple fr eps dx dy dz hdx hdy hdz
    (fun t i j k => .energies (R.fl t i j k) (R.fa t i j k)) R.mob temp (fun _ _ _ _ => 0) cells T R.phi (fun t ht c hc => (h.mob t ht c hc).1)
    (fun t ht c hc => by simp) (fun t ht c hc => le_rfl) h.frame ⟨0, fun t ht c hc => by simp [slant]⟩
    (fun t ht => closed_of_copies3 (h.sides t ht) 0 1)
    (fun t ht c hc => by
      obtain ⟨r, hr, hd⟩ := h.solves t ht c hc
      refine ⟨r, ?_, hd⟩
      rw [← hr]
      simp [rate3, cellRate, pbgCell, ho]) h.start

noncomputable def Run3.push (R : Run3) (S : Setting) (eps dx dy dz t : ℝ) (c : ℤ × ℤ × ℤ) : ℝ :=
  diffTerm3 eps dx dy dz (R.phi t) c.1 c.2.1 c.2.2
    + reaction S.interp S.scale (R.fl t c.1 c.2.1 c.2.2 - R.fa t c.1 c.2.1 c.2.2) (R.phi t c.1 c.2.1 c.2.2)

theorem Run3.Ok.rate {R : Run3} {S : Setting} (hi : S.interp = 'p' ∨ S.interp = 'h') (ho : S.orient = false) (hsc : 0 ≤ S.scale)
    {fr : ℝ → Frame} {eps dx dy dz : ℝ} (hdx : 0 < dx) (hdy : 0 < dy) (hdz : 0 < dz) {temp ogm : ℝ → Field3} {cells : Finset (ℤ × ℤ × ℤ)}
    {σ : ℤ × ℤ × ℤ → ℤ × ℤ × ℤ} {T M D : ℝ} (h : R.Ok S fr eps dx dy dz temp ogm cells σ T M D) :
    ∀ t ∈ Icc 0 T, ∀ c ∈ cells, HasDerivAt (fun s => R.phi s c.1 c.2.1 c.2.2)
      (R.mob t c.1 c.2.1 c.2.2 * R.push S eps dx dy dz t c + frameTerm (fr t) dx (fun a => R.phi t a c.2.1 c.2.2) c.1) t := fun t ht c hc => by
  obtain ⟨r, hr, hd⟩ := h.solves t ht c hc
  obtain ⟨i1, i2⟩ := h.between hi ho hsc hdx hdy hdz t ht c hc
  simp only [rate3] at hr
  rw [cellRate_eq S hi ho _ _ _ _ _ _ _ i1 i2, Option.map_some, Option.some.injEq] at hr
  rw [← hr] at hd
  exact hd

/-- **C143** (3D). -/
theorem c143_phase_3d (S : Setting) (hi : S.interp = 'p' ∨ S.interp = 'h') (ho : S.orient = false) (hsc : 0 ≤ S.scale) (fr : ℝ → Frame)
    (eps dx dy dz : ℝ) (hdx : 0 < dx) (hdy : 0 < dy) (hdz : 0 < dz)
    (temp temp' ogm ogm' : ℝ → Field3) (cells : Finset (ℤ × ℤ × ℤ)) (σ : ℤ × ℤ × ℤ → ℤ × ℤ × ℤ) (T M D D' E δ κ : ℝ) (hE : 0 ≤ E) (R Q : Run3)
    (hR : R.Ok S fr eps dx dy dz temp ogm cells σ T M D) (hQ : Q.Ok S fr eps dx dy dz temp' ogm' cells σ T M D')
    (hδ : ∀ t ∈ Icc 0 T, ∀ c ∈ cells,
      |(R.fl t c.1 c.2.1 c.2.2 - R.fa t c.1 c.2.1 c.2.2) - (Q.fl t c.1 c.2.1 c.2.2 - Q.fa t c.1 c.2.1 c.2.2)| ≤ δ)
    (hκ : ∀ t ∈ Icc 0 T, ∀ c ∈ cells, |(R.mob t c.1 c.2.1 c.2.2 - Q.mob t c.1 c.2.1 c.2.2) * Q.push S eps dx dy dz t c| ≤ κ)
    (h0 : ∀ c ∈ cells, |R.phi 0 c.1 c.2.1 c.2.2 - Q.phi 0 c.1 c.2.1 c.2.2| ≤ E) :
    ∀ t ∈ Icc 0 T, ∀ c ∈ cells, |R.phi t c.1 c.2.1 c.2.2 - Q.phi t c.1 c.2.1 c.2.2|
      ≤ (E + (M * (15 / 8 * δ) + κ) * t) * Real.exp (M * (32 * S.scale + 15 * D) * t) := by
  intro t0 ht0 c0 hc0
  have hT : 0 ≤ T := ht0.1.trans ht0.2
  have h0T : (0:ℝ) ∈ Icc 0 T := ⟨le_rfl, hT⟩
  have hM : 0 ≤ M := (hR.mob 0 h0T _ hc0).1.trans (hR.mob 0 h0T _ hc0).2
  have hD0 : 0 ≤ D := (abs_nonneg _).trans (hR.drop 0 h0T _ hc0)
  have hδ0 : 0 ≤ δ := (abs_nonneg _).trans (hδ 0 h0T _ hc0)
  have hκ0 : 0 ≤ κ := (abs_nonneg _).trans (hκ 0 h0T _ hc0)
  refine close3 fr eps dx dy dz hdx hdy hdz R.mob cells T (M * (32 * S.scale + 15 * D)) (M * (15 / 8 * δ) + κ) E (by positivity) (by positivity)
    hE R.phi Q.phi
    (fun t i j k => R.mob t i j k * R.push S eps dx dy dz t (i, j, k) + frameTerm (fr t) dx (fun a => R.phi t a j k) i)
    (fun t i j k => Q.mob t i j k * Q.push S eps dx dy dz t (i, j, k) + frameTerm (fr t) dx (fun a => Q.phi t a j k) i)
    (hmob := fun t ht c hc => (hR.mob t ht c hc).1) (hfr := hR.frame)
    (hcl := fun t ht => copies_sub3 (hR.sides t ht) (hQ.sides t ht))
    (hw := hR.rate hi ho hsc hdx hdy hdz) (hp := hQ.rate hi ho hsc hdx hdy hdz) (hg := fun t ht c hc => ?_) (h0 := h0) t0 ht0 c0 hc0
  obtain ⟨i1, i2⟩ := hR.between hi ho hsc hdx hdy hdz t ht c hc
  obtain ⟨j1, j2⟩ := hQ.between hi ho hsc hdx hdy hdz t ht c hc
  have key := cell_close S.interp (A := diffTerm3 eps dx dy dz (R.phi t) c.1 c.2.1 c.2.2) hsc (hR.drop t ht c hc) (hδ t ht c hc)
    (hR.mob t ht c hc).1 (hR.mob t ht c hc).2 i1 i2 j1 j2 (hκ t ht c hc)
  refine le_trans (le_of_eq (congrArg _ ?_)) key
  simp only [Run3.push]
  ring

/-- **C143** (3D): the same data give the same run. -/
theorem c143_unique_3d (S : Setting) (hi : S.interp = 'p' ∨ S.interp = 'h') (ho : S.orient = false) (hsc : 0 ≤ S.scale) (fr : ℝ → Frame)
    (eps dx dy dz : ℝ) (hdx : 0 < dx) (hdy : 0 < dy) (hdz : 0 < dz)
    (temp temp' ogm ogm' : ℝ → Field3) (cells : Finset (ℤ × ℤ × ℤ)) (σ : ℤ × ℤ × ℤ → ℤ × ℤ × ℤ) (T M D : ℝ) (R Q : Run3)
    (hR : R.Ok S fr eps dx dy dz temp ogm cells σ T M D) (hQ : Q.Ok S fr eps dx dy dz temp' ogm' cells σ T M D)
    (hf : ∀ t ∈ Icc 0 T, ∀ c ∈ cells, R.fl t c.1 c.2.1 c.2.2 - R.fa t c.1 c.2.1 c.2.2 = Q.fl t c.1 c.2.1 c.2.2 - Q.fa t c.1 c.2.1 c.2.2)
    (hm : ∀ t ∈ Icc 0 T, ∀ c ∈ cells, R.mob t c.1 c.2.1 c.2.2 = Q.mob t c.1 c.2.1 c.2.2)
    (h0 : ∀ c ∈ cells, R.phi 0 c.1 c.2.1 c.2.2 = Q.phi 0 c.1 c.2.1 c.2.2) :
    ∀ t ∈ Icc 0 T, ∀ c ∈ cells, R.phi t c.1 c.2.1 c.2.2 = Q.phi t c.1 c.2.1 c.2.2 := fun t ht c hc => by
  have := c143_phase_3d S hi ho hsc fr eps dx dy dz hdx hdy hdz temp temp' ogm ogm' cells σ T M D D 0 0 0 le_rfl R Q hR hQ
    (fun t ht c hc => by rw [hf t ht c hc]; simp) (fun t ht c hc => by rw [hm t ht c hc]; simp) (fun c hc => by rw [h0 c hc]; simp) t ht c hc
  have e : (0 + (M * (15 / 8 * 0) + 0) * t) * Real.exp (M * (32 * S.scale + 15 * D) * t) = 0 := by ring
  rw [e] at this
  exact sub_eq_zero.1 (abs_nonpos_iff.1 this)

/-! ## The temperature -/

/-- **C143** (heat, 2D): two runs whose initial temperatures differ by at most `E` and whose released heat differs by at most `δ` per unit time
differ at time `t` by at most `E + δ t`. -/
theorem c143_heat_2d (fr : ℝ → Frame) (dx dy diff L L' : ℝ) (hdx : 0 < dx) (hdy : 0 < dy) (hdiff : 0 ≤ diff) (b b' : Bool)
    (cp cp' ph ph' : ℝ → Field2) (cells : Finset (ℤ × ℤ)) (σ : ℤ × ℤ → ℤ × ℤ) (T E δ : ℝ) (hE : 0 ≤ E) (hfr : ∀ t ∈ Icc 0 T, Slow (fr t) dx diff)
    (u w : ℝ → Field2) (hu : ∀ t ∈ Icc 0 T, Copies2 cells σ (u t)) (hw : ∀ t ∈ Icc 0 T, Copies2 cells σ (w t))
    (su : ∀ t ∈ Icc 0 T, ∀ c ∈ cells, HasDerivAt (fun s => u s c.1 c.2) (heatRate2 (fr t) dx dy diff L b (u t) (cp t) (ph t) c.1 c.2) t)
    (sw : ∀ t ∈ Icc 0 T, ∀ c ∈ cells, HasDerivAt (fun s => w s c.1 c.2) (heatRate2 (fr t) dx dy diff L' b' (w t) (cp' t) (ph' t) c.1 c.2) t)
    (hq : ∀ t ∈ Icc 0 T, ∀ c ∈ cells, |released L b (cp t c.1 c.2) (ph t c.1 c.2) - released L' b' (cp' t c.1 c.2) (ph' t c.1 c.2)| ≤ δ)
    (h0 : ∀ c ∈ cells, |u 0 c.1 c.2 - w 0 c.1 c.2| ≤ E) :
    ∀ t ∈ Icc 0 T, ∀ c ∈ cells, |u t c.1 c.2 - w t c.1 c.2| ≤ E + δ * t := by
  intro t0 ht0 c0 hc0
  have hδ : 0 ≤ δ := (abs_nonneg _).trans (hq t0 ht0 c0 hc0)
  have key := close2 .simple fr 1 dx dy hdx hdy (fun h => by cases h) (fun _ _ _ => diff) cells T 0 δ E le_rfl hδ hE u w
    (fun t i j => heatRate2 (fr t) dx dy diff L b (u t) (cp t) (ph t) i j) (fun t i j => heatRate2 (fr t) dx dy diff L' b' (w t) (cp' t) (ph' t) i j)
    (fun t ht c hc => hdiff) (fun t ht c hc => slow_ok (hfr t ht)) (fun t ht => copies_sub2 (hu t ht) (hw t ht)) su sw
    (fun t ht c hc => ?_) h0 t0 ht0 c0 hc0
  · rwa [zero_mul, Real.exp_zero, mul_one] at key
  · rw [heat_split2, heat_split2, zero_mul, zero_add]
    refine le_trans (le_of_eq (congrArg _ ?_)) (hq t ht c hc)
    ring

/-- **C143** (heat, 3D). -/
theorem c143_heat_3d (fr : ℝ → Frame) (dx dy dz diff L L' : ℝ) (hdx : 0 < dx) (hdy : 0 < dy) (hdz : 0 < dz) (hdiff : 0 ≤ diff) (b b' : Bool)
    (cp cp' ph ph' : ℝ → Field3) (cells : Finset (ℤ × ℤ × ℤ)) (σ : ℤ × ℤ × ℤ → ℤ × ℤ × ℤ) (T E δ : ℝ) (hE : 0 ≤ E)
    (hfr : ∀ t ∈ Icc 0 T, Slow (fr t) dx diff)
    (u w : ℝ → Field3) (hu : ∀ t ∈ Icc 0 T, Copies3 cells σ (u t)) (hw : ∀ t ∈ Icc 0 T, Copies3 cells σ (w t))
    (su : ∀ t ∈ Icc 0 T, ∀ c ∈ cells, HasDerivAt (fun s => u s c.1 c.2.1 c.2.2)
      (heatRate3 (fr t) dx dy dz diff L b (u t) (cp t) (ph t) c.1 c.2.1 c.2.2) t)
    (sw : ∀ t ∈ Icc 0 T, ∀ c ∈ cells, HasDerivAt (fun s => w s c.1 c.2.1 c.2.2)
      (heatRate3 (fr t) dx dy dz diff L' b' (w t) (cp' t) (ph' t) c.1 c.2.1 c.2.2) t)
    (hq : ∀ t ∈ Icc 0 T, ∀ c ∈ cells,
      |released L b (cp t c.1 c.2.1 c.2.2) (ph t c.1 c.2.1 c.2.2) - released L' b' (cp' t c.1 c.2.1 c.2.2) (ph' t c.1 c.2.1 c.2.2)| ≤ δ)
    (h0 : ∀ c ∈ cells, |u 0 c.1 c.2.1 c.2.2 - w 0 c.1 c.2.1 c.2.2| ≤ E) :
    ∀ t ∈ Icc 0 T, ∀ c ∈ cells, |u t c.1 c.2.1 c.2.2 - w t c.1 c.2.1 c.2.2| ≤ E + δ * t := by
  intro t0 ht0 c0 hc0
  have hδ : 0 ≤ δ := (abs_nonneg _).trans (hq t0 ht0 c0 hc0)
  have key := close3 fr 1 dx dy dz hdx hdy hdz (fun _ _ _ _ => diff) cells T 0 δ E le_rfl hδ hE u w
    (fun t i j k => heatRate3 (fr t) dx dy dz diff L b (u t) (cp t) (ph t) i j k)
    (fun t i j k => heatRate3 (fr t) dx dy dz diff L' b' (w t) (cp' t) (ph' t) i j k)
    (fun t ht c hc => hdiff) (fun t ht c hc => slow_ok (hfr t ht)) (fun t ht => copies_sub3 (hu t ht) (hw t ht)) su sw
    (fun t ht c hc => ?_) h0 t0 ht0 c0 hc0
  · rwa [zero_mul, Real.exp_zero, mul_one] at key
  · rw [heat_split3, heat_split3, zero_mul, zero_add]
    refine le_trans (le_of_eq (congrArg _ ?_)) (hq t ht c hc)
    ring

/-! ## Grains -/

/-- The well force of a grain depends on all order parameters of the cell. -/
theorem well_close (n : ℕ) (gamma m e : ℝ) (hg : 0 ≤ gamma) (hm : 0 ≤ m) (phi psi : Fin n → ℝ) (h : ∀ k, 0 ≤ phi k ∧ phi k ≤ 1)
    (h' : ∀ k, 0 ≤ psi k ∧ psi k ≤ 1) (he : ∀ k, |phi k - psi k| ≤ e) (p : Fin n) :
    |multiWell n gamma m phi p - multiWell n gamma m psi p| ≤ m * (2 + 2 * gamma * (3 * n + 2)) * e := by
  obtain ⟨a0, a1⟩ := h p
  obtain ⟨b0, b1⟩ := h' p
  have hep := he p
  have e0 : 0 ≤ e := (abs_nonneg _).trans hep
  have sq : ∀ k, |phi k * phi k - psi k * psi k| ≤ 2 * e := fun k => by
    have hk := he k
    obtain ⟨c0, c1⟩ := h k
    obtain ⟨d0, d1⟩ := h' k
    rw [show phi k * phi k - psi k * psi k = (phi k + psi k) * (phi k - psi k) by ring, abs_mul, abs_of_nonneg (by linarith)]
    exact mul_le_mul (by linarith) hk (abs_nonneg _) (by norm_num)
  have sdiff : |∑ k, phi k * phi k - ∑ k, psi k * psi k| ≤ n * (2 * e) := by
    rw [← Finset.sum_sub_distrib]
    refine (Finset.abs_sum_le_sum_abs _ _).trans ((Finset.sum_le_sum fun k _ => sq k).trans ?_)
    simp
  have s0 : 0 ≤ ∑ k, phi k * phi k := Finset.sum_nonneg fun k _ => mul_self_nonneg _
  have s1 : ∑ k, phi k * phi k ≤ n := by
    refine (Finset.sum_le_sum (g := fun _ => (1:ℝ)) fun k _ => ?_).trans (by simp)
    obtain ⟨c0, c1⟩ := h k
    nlinarith
  unfold multiWell
  set s := ∑ k, phi k * phi k
  set s' := ∑ k, psi k * psi k
  set a := phi p
  set b := psi p
  have split : 0 - m * (a * a * a - a + 2 * a * gamma * (s - a)) - (0 - m * (b * b * b - b + 2 * b * gamma * (s' - b)))
      = -(m * ((a * a + a * b + b * b - 1) * (a - b) + 2 * gamma * ((a - b) * s + b * (s - s') - (a * a - b * b)))) := by ring
  show |0 - m * (a * a * a - a + 2 * a * gamma * (s - a)) - (0 - m * (b * b * b - b + 2 * b * gamma * (s' - b)))| ≤ _
  rw [split, abs_neg, abs_mul, abs_of_nonneg hm, mul_assoc m]
  refine mul_le_mul_of_nonneg_left ?_ hm
  have t1 : |(a * a + a * b + b * b - 1) * (a - b)| ≤ 2 * e := by
    rw [abs_mul]
    refine mul_le_mul ?_ hep (abs_nonneg _) (by norm_num)
    rw [abs_le]
    constructor
    · nlinarith [mul_nonneg a0 b0, mul_self_nonneg a, mul_self_nonneg b]
    · nlinarith [mul_le_mul a1 b1 b0 (by norm_num), mul_le_mul a1 a1 a0 (by norm_num), mul_le_mul b1 b1 b0 (by norm_num)]
  have t2 : |(a - b) * s| ≤ e * n := by
    rw [abs_mul, abs_of_nonneg s0]; exact mul_le_mul hep s1 s0 e0
  have t3 : |b * (s - s')| ≤ 1 * (n * (2 * e)) := by
    rw [abs_mul, abs_of_nonneg b0]; exact mul_le_mul b1 sdiff (abs_nonneg _) (by norm_num)
  have t4 := sq p
  have t5 : |2 * gamma * ((a - b) * s + b * (s - s') - (a * a - b * b))| ≤ 2 * gamma * (e * n + 1 * (n * (2 * e)) + 2 * e) := by
    rw [abs_mul, abs_of_nonneg (by positivity)]
    refine mul_le_mul_of_nonneg_left ?_ (by positivity)
    have := abs_sub ((a - b) * s + b * (s - s')) (a * a - b * b)
    have := abs_add_le ((a - b) * s) (b * (s - s'))
    linarith
  have t6 := abs_add_le ((a * a + a * b + b * b - 1) * (a - b)) (2 * gamma * ((a - b) * s + b * (s - s') - (a * a - b * b)))
  calc _ ≤ 2 * e + 2 * gamma * (e * n + 1 * (n * (2 * e)) + 2 * e) := by linarith
    _ = _ := by ring

/-- **C143** (grains, 2D): two runs of several order parameters without a driving force, whose initial order parameters differ by at most `E`,
differ at time `t` by at most `E exp (M m (2 + 2 gamma (3 N + 2)) t)`, with `N = n + 1` the number of order parameters. -/
theorem c143_grains_2d (n : ℕ) (st : Stencil) (fr : ℝ → Frame) (eps gamma m dx dy : ℝ) (hdx : 0 < dx) (hdy : 0 < dy)
    (hst : st = .isotropic → dx * dx ≤ 5 * (dy * dy) ∧ dy * dy ≤ 5 * (dx * dx)) (hgam : 0 ≤ gamma) (hm : 0 ≤ m)
    (mob : ℝ → Field2) (cells : Finset (ℤ × ℤ)) (σ : ℤ × ℤ → ℤ × ℤ) (T M E : ℝ) (hE : 0 ≤ E) (phi psi : ℝ → Fin (n + 1) → Field2)
    (hmob : ∀ t ∈ Icc 0 T, ∀ c ∈ cells, 0 ≤ mob t c.1 c.2 ∧ mob t c.1 c.2 ≤ M)
    (hfr : ∀ t ∈ Icc 0 T, ∀ c ∈ cells, FrameOk (fr t) dx eps (share st dx dy) (mob t c.1 c.2))
    (hS : ∀ t ∈ Icc 0 T, ∀ c ∈ cells, (0 < squares fun p => phi t p c.1 c.2) ∧ 0 < squares fun p => psi t p c.1 c.2)
    (h1 : SolvesMulti2 n st fr eps gamma m dx dy mob (fun _ _ _ => .none) cells T phi)
    (h2 : SolvesMulti2 n st fr eps gamma m dx dy mob (fun _ _ _ => .none) cells T psi)
    (hcl : ∀ t ∈ Icc 0 T, ∀ p, Copies2 cells σ (phi t p) ∧ Copies2 cells σ (psi t p))
    (hin : ∀ c ∈ cells, ∀ p, (0 ≤ phi 0 p c.1 c.2 ∧ phi 0 p c.1 c.2 ≤ 1) ∧ 0 ≤ psi 0 p c.1 c.2 ∧ psi 0 p c.1 c.2 ≤ 1)
    (h0 : ∀ c ∈ cells, ∀ p, |phi 0 p c.1 c.2 - psi 0 p c.1 c.2| ≤ E) :
    ∀ t ∈ Icc 0 T, ∀ c ∈ cells, ∀ p, |phi t p c.1 c.2 - psi t p c.1 c.2| ≤ E * Real.exp (M * (m * (2 + 2 * gamma * (3 * (n + 1) + 2))) * t) := by
  intro t0 ht0 c0 hc0 p0
  have hM : 0 ≤ M := (hmob t0 ht0 c0 hc0).1.trans (hmob t0 ht0 c0 hc0).2
  have bounds : ∀ f : ℝ → Fin (n + 1) → Field2, SolvesMulti2 n st fr eps gamma m dx dy mob (fun _ _ _ => .none) cells T f →
      (∀ t ∈ Icc 0 T, ∀ c ∈ cells, 0 < squares fun p => f t p c.1 c.2) → (∀ t ∈ Icc 0 T, ∀ p, Copies2 cells σ (f t p)) →
      (∀ c ∈ cells, ∀ p, 0 ≤ f 0 p c.1 c.2 ∧ f 0 p c.1 c.2 ≤ 1) → ∀ t ∈ Icc 0 T, ∀ c ∈ cells, ∀ p, 0 ≤ f t p c.1 c.2 ∧ f t p c.1 c.2 ≤ 1 :=
    fun f hs hq hc hi t ht c hcc p =>
      ⟨(c133_nonneg_2d_partial n st fr eps gamma m dx dy hdx hdy hst mob (fun _ _ _ => .none) cells T f (fun t ht c hc => (hmob t ht c hc).1)
          ⟨M, fun t ht c hc => by rw [abs_of_nonneg (hmob t ht c hc).1]; exact (hmob t ht c hc).2⟩ ⟨0, fun _ _ _ _ => trivial⟩ hfr hq hs p).1
          (fun t ht => closed_of_copies2 (hc t ht p) 0 1) (fun c hc => (hi c hc p).1) t ht c hcc,
        c133_below_one_2d_partial n st fr eps gamma m dx dy hdx hdy hst hgam hm mob (fun _ _ _ => .none) cells T f (fun t ht c hc => (hmob t ht c hc).1)
          (fun _ _ _ _ => trivial) hfr hs p (fun t ht => closed_of_copies2 (hc t ht p) 0 1) (fun c hc => (hi c hc p).2) t ht c hcc⟩
  have in1 := bounds phi h1 (fun t ht c hc => (hS t ht c hc).1) (fun t ht p => (hcl t ht p).1) fun c hc p => (hin c hc p).1
  have in2 := bounds psi h2 (fun t ht c hc => (hS t ht c hc).2) (fun t ht p => (hcl t ht p).2) fun c hc p => (hin c hc p).2
  set Λ := M * (m * (2 + 2 * gamma * (3 * (n + 1) + 2))) with hΛ
  have hΛ0 : 0 ≤ Λ := by positivity
  -- the difference of the rates of the two runs, at a cell where the difference is largest
  have wells : ∀ t ∈ Icc 0 T, ∀ c ∈ cells, ∀ p e, (∀ k, |phi t k c.1 c.2 - psi t k c.1 c.2| ≤ e) →
      |rateMulti2 n st (fr t) eps gamma m dx dy (mob t) (fun _ _ => .none) (phi t) p c.1 c.2
        - rateMulti2 n st (fr t) eps gamma m dx dy (mob t) (fun _ _ => .none) (psi t) p c.1 c.2
        - (mob t c.1 c.2 * (diffTerm2 st eps dx dy (phi t p) c.1 c.2 - diffTerm2 st eps dx dy (psi t p) c.1 c.2)
          + (frameTerm (fr t) dx (fun a => phi t p a c.2) c.1 - frameTerm (fr t) dx (fun a => psi t p a c.2) c.1))| ≤ Λ * e := fun t ht c hc p e he => by
    have hw := well_close (n + 1) gamma m e hgam hm (fun k => phi t k c.1 c.2) (fun k => psi t k c.1 c.2) (fun k => in1 t ht c hc k)
      (fun k => in2 t ht c hc k) he p
    have e0 : 0 ≤ e := (abs_nonneg _).trans (he p)
    obtain ⟨m0, m1⟩ := hmob t ht c hc
    have split : rateMulti2 n st (fr t) eps gamma m dx dy (mob t) (fun _ _ => .none) (phi t) p c.1 c.2
        - rateMulti2 n st (fr t) eps gamma m dx dy (mob t) (fun _ _ => .none) (psi t) p c.1 c.2
        - (mob t c.1 c.2 * (diffTerm2 st eps dx dy (phi t p) c.1 c.2 - diffTerm2 st eps dx dy (psi t p) c.1 c.2)
          + (frameTerm (fr t) dx (fun a => phi t p a c.2) c.1 - frameTerm (fr t) dx (fun a => psi t p a c.2) c.1))
        = mob t c.1 c.2 * (multiWell (n + 1) gamma m (fun k => phi t k c.1 c.2) p - multiWell (n + 1) gamma m (fun k => psi t k c.1 c.2) p) := by
      simp only [rateMulti2, cellRateM, drive]; ring
    rw [split, abs_mul, abs_of_nonneg m0, hΛ, mul_assoc]
    refine mul_le_mul m1 (hw.trans (le_of_eq ?_)) (abs_nonneg _) hM
    push_cast; ring
  have key := error_le (cells ×ˢ (Finset.univ : Finset (Fin (n + 1)))) (fun t i => phi t i.2 i.1.1 i.1.2 - psi t i.2 i.1.1 i.1.2)
    (fun t i => rateMulti2 n st (fr t) eps gamma m dx dy (mob t) (fun _ _ => .none) (phi t) i.2 i.1.1 i.1.2
      - rateMulti2 n st (fr t) eps gamma m dx dy (mob t) (fun _ _ => .none) (psi t) i.2 i.1.1 i.1.2) T Λ 0 E hΛ0 le_rfl hE
    (fun t ht i hi => (h1 t ht i.1 (Finset.mem_product.1 hi).1 i.2).sub (h2 t ht i.1 (Finset.mem_product.1 hi).1 i.2))
    (fun i hi => h0 i.1 (Finset.mem_product.1 hi).1 i.2)
    (fun t ht i hi hpos hmax => ?_) (fun t ht i hi hneg hmax => ?_) t0 ht0 (c0, p0) (by simp [hc0])
  · rw [zero_mul, add_zero] at key; exact key
  · obtain ⟨c, p⟩ := i
    have hc : c ∈ cells := (Finset.mem_product.1 hi).1
    have w := (abs_le.1 (wells t ht c hc p _ fun k => hmax (c, k) (by simp [hc]))).2
    have pull := pull2 st (fr t) eps dx dy (mob t c.1 c.2) hdx hdy (hmob t ht c hc).1 hst (hfr t ht c hc)
      (fun a b => psi t p a b - phi t p a b) c.1 c.2
      (fun a b a1 a2 b1 b2 => by
        obtain ⟨q, hq, e⟩ := copies_sub2 (hcl t ht p).1 (hcl t ht p).2 c hc a b a1 a2 b1 b2
        have h := hmax (q, p) (by simp [hq])
        show psi t p c.1 c.2 - phi t p c.1 c.2 ≤ psi t p (c.1 + a) (c.2 + b) - phi t p (c.1 + a) (c.2 + b)
        have := le_abs_self (phi t p q.1 q.2 - psi t p q.1 q.2)
        simp only at h
        linarith)
    rw [diff_sub, frame_sub (fr t) dx (fun a => psi t p a c.2) (fun a => phi t p a c.2)] at pull
    simp only at w ⊢
    linarith
  · obtain ⟨c, p⟩ := i
    have hc : c ∈ cells := (Finset.mem_product.1 hi).1
    have w := (abs_le.1 (wells t ht c hc p _ fun k => hmax (c, k) (by simp [hc]))).1
    have pull := pull2 st (fr t) eps dx dy (mob t c.1 c.2) hdx hdy (hmob t ht c hc).1 hst (hfr t ht c hc)
      (fun a b => phi t p a b - psi t p a b) c.1 c.2
      (fun a b a1 a2 b1 b2 => by
        obtain ⟨q, hq, e⟩ := copies_sub2 (hcl t ht p).1 (hcl t ht p).2 c hc a b a1 a2 b1 b2
        have h := hmax (q, p) (by simp [hq])
        show phi t p c.1 c.2 - psi t p c.1 c.2 ≤ phi t p (c.1 + a) (c.2 + b) - psi t p (c.1 + a) (c.2 + b)
        have := neg_le_abs (phi t p q.1 q.2 - psi t p q.1 q.2)
        simp only at h
        linarith)
    rw [diff_sub, frame_sub (fr t) dx (fun a => phi t p a c.2) (fun a => psi t p a c.2)] at pull
    simp only at w ⊢
    linarith

/-! ## The hypotheses are met -/

/-- Periodic sides. -/
theorem copies_of_periodic (nx ny : ℤ) (hx : 0 < nx) (hy : 0 < ny) (phi : Field2) (h1 : ∀ i j, phi (i % nx) j = phi i j) (h2 : ∀ i j, phi i (j % ny) = phi i j) :
    Copies2 (box2 nx ny) (fun q => (q.1 % nx, q.2 % ny)) phi := fun c _ a b _ _ _ _ => by
  refine ⟨?_, by rw [h1, h2]⟩
  simp only [box2, Finset.mem_product, Finset.mem_Ico]
  exact ⟨⟨Int.emod_nonneg _ hx.ne', Int.emod_lt_of_pos _ hx⟩, Int.emod_nonneg _ hy.ne', Int.emod_lt_of_pos _ hy⟩

/-- Sides without flux. -/
theorem copies_of_mirror (nx ny : ℤ) (hx : 0 < nx) (hy : 0 < ny) (phi : Field2) :
    Copies2 (box2 nx ny) (fun q => (max 0 (min q.1 (nx - 1)), max 0 (min q.2 (ny - 1))))
      (fun i j => phi (max 0 (min i (nx - 1))) (max 0 (min j (ny - 1)))) := fun c _ a b _ _ _ _ => by
  simp only [box2, Finset.mem_product, Finset.mem_Ico]
  refine ⟨⟨⟨by omega, by omega⟩, by omega, by omega⟩, ?_⟩
  congr 1 <;> omega

/-- Plus one in the even columns, minus one in the odd ones. -/
noncomputable def stripe (i : ℤ) : ℝ := if i % 2 = 0 then 1 else -1

/-- Stripes of any amplitude up to one half, which diffusion smooths; two of them satisfy the hypotheses of `c143_phase_2d`. -/
example (A : ℝ) (hA : |A| ≤ 1 / 2) : Run2.Ok ⟨fun _ _ _ => 0, fun _ _ _ => 0, fun _ _ _ => 1, fun t i _ => 1 / 2 + A * Real.exp (-(4 * t)) * stripe i⟩
    ⟨'p', 'q', 'q', 0, 0, 0, false⟩ .simple (fun _ => .fixed) 1 1 1 (fun _ _ _ => 0) (fun _ _ _ => 0) (box2 2 1) (fun q => (q.1 % 2, q.2 % 1)) 1 1 0 where
  mob _ _ _ _ := by norm_num
  drop _ _ _ _ := by norm_num
  frame _ _ _ _ := trivial
  sides t _ := copies_of_periodic 2 1 (by norm_num) (by norm_num) _ (fun i j => by simp [stripe]) fun i j => rfl
  solves t ht c hc := by
    have hs : |stripe c.1| = 1 := by unfold stripe; split_ifs <;> simp
    have hexp : Real.exp (-(4 * t)) ≤ 1 := Real.exp_le_one_iff.2 (by linarith [ht.1])
    have hamp : |A * Real.exp (-(4 * t)) * stripe c.1| ≤ 1 / 2 := by
      rw [abs_mul, hs, mul_one, abs_mul, abs_of_pos (Real.exp_pos _)]
      nlinarith [abs_nonneg A, Real.exp_pos (-(4 * t))]
    obtain ⟨l, u⟩ := abs_le.1 hamp
    refine ⟨-4 * (A * Real.exp (-(4 * t)) * stripe c.1), ?_, ?_⟩
    · unfold rate2
      rw [cellRate_eq _ (Or.inl rfl) rfl _ _ _ _ _ _ _ (by linarith) (by linarith), Option.map_some, Option.some.injEq, diff_simple]
      have e1 : stripe (c.1 + 1) = -stripe c.1 := by
        unfold stripe; split_ifs <;> first | omega | norm_num
      have e2 : stripe (c.1 + -1) = -stripe c.1 := by
        unfold stripe; split_ifs <;> first | omega | norm_num
      simp only [reaction, frameTerm, e1, e2]
      ring
    · have d := ((((hasDerivAt_id t).const_mul (4:ℝ)).neg.exp.const_mul A).mul_const (stripe c.1)).const_add (1 / 2 : ℝ)
      refine d.congr_deriv ?_
      simp only [id_eq, Pi.neg_apply]
      ring
  start c _ := by
    have hs : |stripe c.1| = 1 := by unfold stripe; split_ifs <;> simp
    have : |A * stripe c.1| ≤ 1 / 2 := by rw [abs_mul, hs, mul_one]; exact hA
    obtain ⟨l, u⟩ := abs_le.1 this
    simp only [mul_zero, neg_zero, Real.exp_zero, mul_one]
    constructor <;> linarith

end AMPE.Dependence.Props
