import Verif.Proofs.MeltSystem
import Verif.Model.MeltFlow

/-!
# C146: the equations of a pure melt have one solution, up to any time
-/

namespace AMPE.MeltExist.Props

open AMPE.Functions AMPE.Flux AMPE.PhaseRHS AMPE.Alloy AMPE.PhaseBounds AMPE.PhaseBounds.Props AMPE.HeatOrder AMPE.HeatOrder.Props AMPE.Converge
open AMPE.Convergence.Props AMPE.Dependence.Props AMPE.MeltSystem AMPE.MeltFlow Set

/-! ## Specification -/

/-- What is put in the cells around the domain: `σ` gives for every position the cell of the domain whose value is there, and leaves the
cells of the domain alone (periodic sides: the index modulo the size; sides without flux: the nearest cell). -/
def Wrap {α : Type} (cells : Finset α) (σ : α → α) : Prop := (∀ q, σ q ∈ cells) ∧ ∀ c ∈ cells, σ c = c

/-- The driving force of a pure melt in a cell (`DeltaTemperatureFreeEnergyStrategy` with its weighted temperature, or
`TemperatureFreeEnergyStrategy`). -/
noncomputable def meltForce2 (kind : Kind) (fa tm latent : ℝ) (temp : Field2) (i j : ℤ) : Force :=
  match kind with
  | .delta => .melting tm latent (0.75 * temp i j + 0.0625 * (temp (i - 1) j + temp i (j - 1) + temp (i + 1) j + temp i (j + 1)))
  | .temperature => .energies (freeLiquid fa latent tm (temp i j)) fa

noncomputable def meltForce3 (kind : Kind) (fa tm latent : ℝ) (temp : Field3) (i j k : ℤ) : Force :=
  match kind with
  | .delta => .melting tm latent (0.75 * temp i j k + 0.25 / 6 * (temp (i - 1) j k + temp i (j - 1) k + temp (i + 1) j k + temp i (j + 1) k
      + temp i j (k - 1) + temp i j (k + 1)))
  | .temperature => .energies (freeLiquid fa latent tm (temp i j k)) fa

/-- Phase and temperature follow the rates of the program from time 0 to `T` in all cells; the heat released is that of the phase rate. -/
def Evolves2 (S : Setting) (st : Stencil) (fr : Frame) (kind : Kind) (eps dx dy fa tm latent diff L : ℝ) (withPhase : Bool) (mob cp : Field2)
    (cells : Finset (ℤ × ℤ)) (T : ℝ) (phi temp : ℝ → Field2) : Prop :=
  ∀ t ∈ Icc 0 T, ∀ c ∈ cells, ∃ r,
    rate2 S st fr eps dx dy (meltForce2 kind fa tm latent (temp t)) mob (temp t) (fun _ _ => 0) (phi t) c.1 c.2 = some r ∧
    HasDerivAt (fun s => phi s c.1 c.2) r t ∧
    HasDerivAt (fun s => temp s c.1 c.2) (heatRate2 fr dx dy diff L withPhase (temp t) cp (fun _ _ => r) c.1 c.2) t

def Evolves3 (S : Setting) (fr : Frame) (kind : Kind) (eps dx dy dz fa tm latent diff L : ℝ) (withPhase : Bool) (mob cp : Field3)
    (cells : Finset (ℤ × ℤ × ℤ)) (T : ℝ) (phi temp : ℝ → Field3) : Prop :=
  ∀ t ∈ Icc 0 T, ∀ c ∈ cells, ∃ r,
    rate3 S .simple fr eps dx dy dz (meltForce3 kind fa tm latent (temp t)) mob (temp t) (fun _ _ _ => 0) (phi t) c.1 c.2.1 c.2.2 = some r ∧
    HasDerivAt (fun s => phi s c.1 c.2.1 c.2.2) r t ∧
    HasDerivAt (fun s => temp s c.1 c.2.1 c.2.2) (heatRate3 fr dx dy dz diff L withPhase (temp t) cp (fun _ _ _ => r) c.1 c.2.1 c.2.2) t

/-! ## Linearity of the stencils -/

theorem diff_lin (st : Stencil) (eps dx dy r : ℝ) (u w : Field2) (i j : ℤ) :
    diffTerm2 st eps dx dy (fun a b => r * u a b + w a b) i j = r * diffTerm2 st eps dx dy u i j + diffTerm2 st eps dx dy w i j := by
  cases st with
  | simple => rw [diff_simple, diff_simple, diff_simple]; ring
  | isotropic => rw [diff_iso, diff_iso, diff_iso]; ring

theorem diff_const (st : Stencil) (eps dx dy k : ℝ) (i j : ℤ) : diffTerm2 st eps dx dy (fun _ _ => k) i j = 0 := by
  cases st with
  | simple => rw [diff_simple]; ring
  | isotropic => rw [diff_iso]; ring

theorem diff3_lin (eps dx dy dz r : ℝ) (u w : Field3) (i j k : ℤ) :
    diffTerm3 eps dx dy dz (fun a b c => r * u a b c + w a b c) i j k = r * diffTerm3 eps dx dy dz u i j k + diffTerm3 eps dx dy dz w i j k := by
  simp only [diffTerm3, div3, gradFlux3X, gradFlux3Y, gradFlux3Z]
  ring

theorem diff3_const (eps dx dy dz v : ℝ) (i j k : ℤ) : diffTerm3 eps dx dy dz (fun _ _ _ => v) i j k = 0 := by
  simp only [diffTerm3, div3, gradFlux3X, gradFlux3Y, gradFlux3Z]
  ring

theorem frame_lin (fr : Frame) (dx r : ℝ) (u w : ℤ → ℝ) (i : ℤ) :
    frameTerm fr dx (fun a => r * u a + w a) i = r * frameTerm fr dx u i + frameTerm fr dx w i := by
  cases fr with
  | fixed => simp [frameTerm]
  | centred v => simp only [frameTerm, convect]; ring
  | upwind v b l => simp only [frameTerm, convectUpwind3]; split_ifs <;> ring

theorem frame_const (fr : Frame) (dx k : ℝ) (i : ℤ) (h : ∀ v b l, fr ≠ .upwind v b l) : frameTerm fr dx (fun _ => k) i = 0 := by
  cases fr with
  | fixed => simp [frameTerm]
  | centred v => simp only [frameTerm, convect]; ring
  | upwind v b l => exact absurd rfl (h v b l)

/-- A linear map from its value on combinations. -/
def linOf {V : Type} [AddCommGroup V] [Module ℝ V] (f : V → ℝ) (h : ∀ (r : ℝ) (u w : V), f (r • u + w) = r * f u + f w) : V →ₗ[ℝ] ℝ where
  toFun := f
  map_add' u w := by simpa using h 1 u w
  map_smul' r u := by
    have h0 : f 0 = 0 := by have := h 1 0 0; simp at this; exact this
    simpa [h0] using h r u 0

theorem cellRate_melting (S : Setting) (hi : S.interp = 'p' ∨ S.interp = 'h') (ho : S.orient = false) (tm latent w mob d y temp ogm : ℝ)
    (h0 : 0 ≤ y) (h1 : y ≤ 1) :
    cellRate S (.melting tm latent w) mob d y temp ogm = some (mob * (d + reaction S.interp S.scale (latent / tm * (tm - w)) y)) := by
  unfold cellRate pbgCell reaction slopeH
  rcases hi with hi | hi <;>
  · simp [hi, ho, derivWellFunc, addForce, derivInterpFunc, clamp_of_mem h0 h1]
    ring_nf; simp

/-! ## Two dimensions -/

section two

variable {cells : Finset (ℤ × ℤ)} {σ : ℤ × ℤ → ℤ × ℤ}

/-- The field with the values `x` in the cells and their copies around. -/
def ext2 (hσ : ∀ q, σ q ∈ cells) (x : cells → ℝ) : Field2 := fun i j => x ⟨σ (i, j), hσ (i, j)⟩

/-- The weighted temperature. -/
noncomputable def weighted2 (kind : Kind) (T : Field2) (i j : ℤ) : ℝ :=
  match kind with
  | .delta => 0.75 * T i j + 0.0625 * (T (i - 1) j + T i (j - 1) + T (i + 1) j + T i (j + 1))
  | .temperature => T i j

/-- The system of the cells. -/
noncomputable def sys2 (hσ : ∀ q, σ q ∈ cells) (S : Setting) (st : Stencil) (fr : Frame) (kind : Kind) (eps dx dy tm latent diff L : ℝ) (withPhase : Bool)
    (mob cp : Field2) : Sys cells where
  A c := linOf (fun x => mob c.1.1 c.1.2 * diffTerm2 st eps dx dy (ext2 hσ x) c.1.1 c.1.2 + frameTerm fr dx (fun a => ext2 hσ x a c.1.2) c.1.1)
    fun r u w => by
      have e1 : ext2 hσ (r • u + w) = fun a b => r * ext2 hσ u a b + ext2 hσ w a b := rfl
      rw [e1, diff_lin, frame_lin fr dx r (fun a => ext2 hσ u a c.1.2) (fun a => ext2 hσ w a c.1.2)]
      ring
  H c := linOf (fun x => diff * diffTerm2 .simple 1 dx dy (ext2 hσ x) c.1.1 c.1.2 + frameTerm fr dx (fun a => ext2 hσ x a c.1.2) c.1.1)
    fun r u w => by
      have e1 : ext2 hσ (r • u + w) = fun a b => r * ext2 hσ u a b + ext2 hσ w a b := rfl
      rw [e1, diff_lin, frame_lin fr dx r (fun a => ext2 hσ u a c.1.2) (fun a => ext2 hσ w a c.1.2)]
      ring
  W c := linOf (fun x => weighted2 kind (ext2 hσ x) c.1.1 c.1.2) fun r u w => by
      have e1 : ext2 hσ (r • u + w) = fun a b => r * ext2 hσ u a b + ext2 hσ w a b := rfl
      rw [e1]
      cases kind <;> simp only [weighted2]
      ring
  m c := mob c.1.1 c.1.2
  g c := if withPhase then L / cp c.1.1 c.1.2 else 0
  interp := S.interp
  scale := S.scale
  α := latent / tm
  β := latent / tm * tm

theorem weighted_means2 (hσ : ∀ q, σ q ∈ cells) (kind : Kind) (x : cells → ℝ) (R : ℝ) (h : ∀ q, |x q| ≤ R) (i j : ℤ) :
    |weighted2 kind (ext2 hσ x) i j| ≤ R := by
  have b : ∀ i j, -R ≤ ext2 hσ x i j ∧ ext2 hσ x i j ≤ R := fun i j => abs_le.1 (h _)
  cases kind with
  | temperature => exact h _
  | delta =>
    simp only [weighted2]
    obtain ⟨a1, a2⟩ := b i j
    obtain ⟨b1, b2⟩ := b (i - 1) j
    obtain ⟨c1, c2⟩ := b i (j - 1)
    obtain ⟨d1, d2⟩ := b (i + 1) j
    obtain ⟨e1, e2⟩ := b i (j + 1)
    rw [abs_le]; constructor <;> linarith

theorem pulls_a2 (hσ : Wrap cells σ) (S : Setting) (st : Stencil) (fr : Frame) (kind : Kind) (eps dx dy tm latent diff L : ℝ) (withPhase : Bool)
    (mob cp : Field2) (hdx : 0 < dx) (hdy : 0 < dy) (hst : st = .isotropic → dx * dx ≤ 5 * (dy * dy) ∧ dy * dy ≤ 5 * (dx * dx))
    (hmob : ∀ c ∈ cells, 0 ≤ mob c.1 c.2) (hfr : ∀ c ∈ cells, FrameOk fr dx eps (share st dx dy) (mob c.1 c.2)) (c : cells) :
    Pulls ((sys2 hσ.1 S st fr kind eps dx dy tm latent diff L withPhase mob cp).A c) c := by
  constructor
  · intro x hx
    refine pull2 st fr eps dx dy (mob c.1.1 c.1.2) hdx hdy (hmob _ c.2) hst (hfr _ c.2) (ext2 hσ.1 x) c.1.1 c.1.2 fun a b _ _ _ _ => ?_
    have e : ext2 hσ.1 x c.1.1 c.1.2 = x c := congrArg x (Subtype.ext (hσ.2 _ c.2))
    rw [e]; exact hx _
  · intro k
    show mob c.1.1 c.1.2 * diffTerm2 st eps dx dy (fun _ _ => k) c.1.1 c.1.2 + frameTerm fr dx (fun _ => k) c.1.1 = 0
    rw [diff_const, frame_const _ _ _ _ (not_upwind (hfr _ c.2))]; ring

theorem pulls_h2 (hσ : Wrap cells σ) (S : Setting) (st : Stencil) (fr : Frame) (kind : Kind) (eps dx dy tm latent diff L : ℝ) (withPhase : Bool)
    (mob cp : Field2) (hdx : 0 < dx) (hdy : 0 < dy) (hdiff : 0 ≤ diff) (hsl : Slow fr dx diff) (c : cells) :
    Pulls ((sys2 hσ.1 S st fr kind eps dx dy tm latent diff L withPhase mob cp).H c) c := by
  constructor
  · intro x hx
    refine pull2 .simple fr 1 dx dy diff hdx hdy hdiff (fun h => by cases h) (slow_ok hsl) (ext2 hσ.1 x) c.1.1 c.1.2 fun a b _ _ _ _ => ?_
    have e : ext2 hσ.1 x c.1.1 c.1.2 = x c := congrArg x (Subtype.ext (hσ.2 _ c.2))
    rw [e]; exact hx _
  · intro k
    show diff * diffTerm2 .simple 1 dx dy (fun _ _ => k) c.1.1 c.1.2 + frameTerm fr dx (fun _ => k) c.1.1 = 0
    rw [diff_const, frame_const _ _ _ _ (not_upwind (slow_ok hsl))]; ring

/-- The rate of the phase of the program is that of the system, for phases between zero and one. -/
theorem rate_eq2 (hσ : ∀ q, σ q ∈ cells) (S : Setting) (hi : S.interp = 'p' ∨ S.interp = 'h') (ho : S.orient = false) (st : Stencil) (fr : Frame)
    (kind : Kind) (eps dx dy fa tm latent diff L : ℝ) (withPhase : Bool) (mob cp : Field2) (x w : cells → ℝ) (ogm temp : Field2) (c : cells) (hc : σ c.1 = c.1)
    (h0 : 0 ≤ x c) (h1 : x c ≤ 1) :
    rate2 S st fr eps dx dy (meltForce2 kind fa tm latent (ext2 hσ w)) mob temp ogm (ext2 hσ x) c.1.1 c.1.2
      = some ((sys2 hσ S st fr kind eps dx dy tm latent diff L withPhase mob cp).phase x w c) := by
  have e : ext2 hσ x c.1.1 c.1.2 = x c := congrArg x (Subtype.ext hc)
  show (cellRate S _ _ _ (ext2 hσ x c.1.1 c.1.2) _ _).map _ = some (mob c.1.1 c.1.2 * diffTerm2 st eps dx dy (ext2 hσ x) c.1.1 c.1.2
    + frameTerm fr dx (fun a => ext2 hσ x a c.1.2) c.1.1
    + mob c.1.1 c.1.2 * reaction S.interp S.scale (latent / tm * tm - latent / tm * weighted2 kind (ext2 hσ w) c.1.1 c.1.2) (x c))
  rw [e]
  cases kind with
  | delta =>
    simp only [meltForce2, weighted2]
    rw [cellRate_melting S hi ho _ _ _ _ _ _ _ _ h0 h1, Option.map_some, Option.some.injEq, mul_sub (latent / tm) tm]
    ring
  | temperature =>
    simp only [meltForce2, weighted2]
    rw [cellRate_eq S hi ho _ _ _ _ _ _ _ h0 h1, Option.map_some, Option.some.injEq]
    have d : freeLiquid fa latent tm (ext2 hσ w c.1.1 c.1.2) - fa = latent / tm * tm - latent / tm * ext2 hσ w c.1.1 c.1.2 := by
      unfold freeLiquid; ring
    rw [d]; ring

theorem heat_eq2 (hσ : ∀ q, σ q ∈ cells) (S : Setting) (st : Stencil) (fr : Frame)
    (kind : Kind) (eps dx dy tm latent diff L : ℝ) (withPhase : Bool) (mob cp : Field2) (x w : cells → ℝ) (c : cells) :
    heatRate2 fr dx dy diff L withPhase (ext2 hσ w) cp (fun _ _ => (sys2 hσ S st fr kind eps dx dy tm latent diff L withPhase mob cp).phase x w c) c.1.1 c.1.2
      = (sys2 hσ S st fr kind eps dx dy tm latent diff L withPhase mob cp).heat x w c := by
  rw [heat_split2]
  show _ = diff * diffTerm2 .simple 1 dx dy (ext2 hσ w) c.1.1 c.1.2 + frameTerm fr dx (fun a => ext2 hσ w a c.1.2) c.1.1
    + (if withPhase then L / cp c.1.1 c.1.2 else 0) * _
  unfold released
  split_ifs <;> ring

/-- **C146** (2D, existence): from any phase between zero and one and any temperatures, the equations of the program have a solution up to any
time `T`: no phase and no temperature grows without bound at a finite time. -/
theorem c146_exists_2d (S : Setting) (hi : S.interp = 'p' ∨ S.interp = 'h') (ho : S.orient = false) (hsc : 0 ≤ S.scale) (st : Stencil) (fr : Frame)
    (kind : Kind) (eps dx dy fa tm latent diff L : ℝ) (hdx : 0 < dx) (hdy : 0 < dy)
    (hst : st = .isotropic → dx * dx ≤ 5 * (dy * dy) ∧ dy * dy ≤ 5 * (dx * dx)) (hdiff : 0 ≤ diff) (withPhase : Bool) (mob cp : Field2)
    (hne : cells.Nonempty) (hσ : Wrap cells σ) (hmob : ∀ c ∈ cells, 0 ≤ mob c.1 c.2)
    (hfr : ∀ c ∈ cells, FrameOk fr dx eps (share st dx dy) (mob c.1 c.2)) (hsl : Slow fr dx diff) (T : ℝ) (hT : 0 ≤ T) (phi0 temp0 : Field2)
    (h0 : ∀ c ∈ cells, 0 ≤ phi0 c.1 c.2 ∧ phi0 c.1 c.2 ≤ 1) :
    ∃ phi temp : ℝ → Field2, (∀ c ∈ cells, phi 0 c.1 c.2 = phi0 c.1 c.2 ∧ temp 0 c.1 c.2 = temp0 c.1 c.2) ∧
      (∀ t, Copies2 cells σ (phi t) ∧ Copies2 cells σ (temp t)) ∧
      Evolves2 S st fr kind eps dx dy fa tm latent diff L withPhase mob cp cells T phi temp ∧
      ∀ t ∈ Icc 0 T, ∀ c ∈ cells, 0 ≤ phi t c.1 c.2 ∧ phi t c.1 c.2 ≤ 1 := by
  have : Nonempty cells := hne.to_subtype
  obtain ⟨φ, τ, e1, e2, b, d1, d2⟩ := exists_solution (sys2 hσ.1 S st fr kind eps dx dy tm latent diff L withPhase mob cp) hsc
    (pulls_a2 hσ S st fr kind eps dx dy tm latent diff L withPhase mob cp hdx hdy hst hmob hfr)
    (pulls_h2 hσ S st fr kind eps dx dy tm latent diff L withPhase mob cp hdx hdy hdiff hsl)
    (fun c x R hx => weighted_means2 hσ.1 kind x R hx _ _) T hT (fun c => phi0 c.1.1 c.1.2) (fun c => temp0 c.1.1 c.1.2) (fun c => h0 c.1 c.2)
  have at_cell : ∀ (x : cells → ℝ) (c : ℤ × ℤ) (hc : c ∈ cells), ext2 hσ.1 x c.1 c.2 = x ⟨c, hc⟩ := fun x c hc =>
    congrArg x (Subtype.ext (hσ.2 c hc))
  have copies : ∀ x : cells → ℝ, Copies2 cells σ (ext2 hσ.1 x) := fun x c hc a b _ _ _ _ =>
    ⟨hσ.1 _, congrArg x (Subtype.ext (hσ.2 _ (hσ.1 _)).symm)⟩
  refine ⟨fun t => ext2 hσ.1 (φ t), fun t => ext2 hσ.1 (τ t), fun c hc => ?_, fun t => ⟨copies _, copies _⟩, fun t ht c hc => ?_, fun t ht c hc => ?_⟩
  · exact ⟨(at_cell _ c hc).trans (congrFun e1 ⟨c, hc⟩), (at_cell _ c hc).trans (congrFun e2 ⟨c, hc⟩)⟩
  · obtain ⟨b0, b1⟩ := b t ht ⟨c, hc⟩
    refine ⟨_, rate_eq2 hσ.1 S hi ho st fr kind eps dx dy fa tm latent diff L withPhase mob cp (φ t) (τ t) _ _ ⟨c, hc⟩ (hσ.2 c hc) b0 b1, ?_, ?_⟩
    · have := d1 t ht ⟨c, hc⟩
      simp only [at_cell _ c hc]; exact this
    · have := d2 t ht ⟨c, hc⟩
      rw [heat_eq2 hσ.1 S st fr kind eps dx dy tm latent diff L withPhase mob cp (φ t) (τ t) ⟨c, hc⟩]
      simp only [at_cell _ c hc]; exact this
  · simp only [at_cell _ c hc]; exact b t ht ⟨c, hc⟩

/-- Fields with the same values in the cells and the copies the stencils read. -/
theorem stencil_eq2 (hσ : Wrap cells σ) {u : Field2} (hu : Copies2 cells σ u) (c : ℤ × ℤ) (hc : c ∈ cells) (a b : ℤ) (a1 : -1 ≤ a) (a2 : a ≤ 1)
    (b1 : -1 ≤ b) (b2 : b ≤ 1) : u (c.1 + a) (c.2 + b) = ext2 hσ.1 (fun q => u q.1.1 q.1.2) (c.1 + a) (c.2 + b) :=
  (hu c hc a b a1 a2 b1 b2).2

theorem diff_congr2 (st : Stencil) (eps dx dy : ℝ) (u w : Field2) (i j : ℤ)
    (h : ∀ a b : ℤ, -1 ≤ a → a ≤ 1 → -1 ≤ b → b ≤ 1 → u (i + a) (j + b) = w (i + a) (j + b)) : diffTerm2 st eps dx dy u i j = diffTerm2 st eps dx dy w i j := by
  have h00 := h 0 0 (by norm_num) (by norm_num) (by norm_num) (by norm_num)
  have hE := h 1 0 (by norm_num) (by norm_num) (by norm_num) (by norm_num)
  have hW := h (-1) 0 (by norm_num) (by norm_num) (by norm_num) (by norm_num)
  have hN := h 0 1 (by norm_num) (by norm_num) (by norm_num) (by norm_num)
  have hS := h 0 (-1) (by norm_num) (by norm_num) (by norm_num) (by norm_num)
  have hNE := h 1 1 (by norm_num) (by norm_num) (by norm_num) (by norm_num)
  have hSE := h 1 (-1) (by norm_num) (by norm_num) (by norm_num) (by norm_num)
  have hNW := h (-1) 1 (by norm_num) (by norm_num) (by norm_num) (by norm_num)
  have hSW := h (-1) (-1) (by norm_num) (by norm_num) (by norm_num) (by norm_num)
  simp only [add_zero] at h00 hE hW hN hS
  cases st with
  | simple => rw [diff_simple, diff_simple, h00, hE, hW, hN, hS]
  | isotropic => rw [diff_iso, diff_iso, h00, hE, hW, hN, hS, hNE, hSE, hNW, hSW]

theorem frame_congr (fr : Frame) (hfr : ∀ v b l, fr ≠ .upwind v b l) (dx : ℝ) (u w : ℤ → ℝ) (i : ℤ) (h1 : u (i + 1) = w (i + 1))
    (h2 : u (i + -1) = w (i + -1)) : frameTerm fr dx u i = frameTerm fr dx w i := by
  cases fr with
  | fixed => rfl
  | centred v =>
    simp only [← sub_eq_add_neg] at h2
    simp only [frameTerm, convect, h1, h2]
  | upwind v b l => exact absurd rfl (hfr v b l)

theorem force_congr2 (kind : Kind) (fa tm latent : ℝ) (u w : Field2) (i j : ℤ)
    (h : ∀ a b : ℤ, -1 ≤ a → a ≤ 1 → -1 ≤ b → b ≤ 1 → u (i + a) (j + b) = w (i + a) (j + b)) :
    meltForce2 kind fa tm latent u i j = meltForce2 kind fa tm latent w i j := by
  have h00 := h 0 0 (by norm_num) (by norm_num) (by norm_num) (by norm_num)
  have hE := h 1 0 (by norm_num) (by norm_num) (by norm_num) (by norm_num)
  have hW := h (-1) 0 (by norm_num) (by norm_num) (by norm_num) (by norm_num)
  have hN := h 0 1 (by norm_num) (by norm_num) (by norm_num) (by norm_num)
  have hS := h 0 (-1) (by norm_num) (by norm_num) (by norm_num) (by norm_num)
  simp only [add_zero, ← sub_eq_add_neg] at h00 hE hW hN hS
  cases kind <;> simp only [meltForce2, h00, hE, hW, hN, hS]

/-- **C146** (2D, uniqueness): two solutions that start with the same phase, between zero and one, and the same temperatures are the same. -/
theorem c146_unique_2d (S : Setting) (hi : S.interp = 'p' ∨ S.interp = 'h') (ho : S.orient = false) (hsc : 0 ≤ S.scale) (st : Stencil) (fr : Frame)
    (kind : Kind) (eps dx dy fa tm latent diff L : ℝ) (hdx : 0 < dx) (hdy : 0 < dy)
    (hst : st = .isotropic → dx * dx ≤ 5 * (dy * dy) ∧ dy * dy ≤ 5 * (dx * dx)) (withPhase : Bool) (mob cp : Field2)
    (hσ : Wrap cells σ) (hmob : ∀ c ∈ cells, 0 ≤ mob c.1 c.2)
    (hfr : ∀ c ∈ cells, FrameOk fr dx eps (share st dx dy) (mob c.1 c.2)) (T : ℝ) (phi temp phi' temp' : ℝ → Field2)
    (hs : ∀ t ∈ Icc 0 T, Copies2 cells σ (phi t) ∧ Copies2 cells σ (temp t)) (hs' : ∀ t ∈ Icc 0 T, Copies2 cells σ (phi' t) ∧ Copies2 cells σ (temp' t))
    (he : Evolves2 S st fr kind eps dx dy fa tm latent diff L withPhase mob cp cells T phi temp)
    (he' : Evolves2 S st fr kind eps dx dy fa tm latent diff L withPhase mob cp cells T phi' temp')
    (h0 : ∀ c ∈ cells, 0 ≤ phi 0 c.1 c.2 ∧ phi 0 c.1 c.2 ≤ 1)
    (e : ∀ c ∈ cells, phi 0 c.1 c.2 = phi' 0 c.1 c.2 ∧ temp 0 c.1 c.2 = temp' 0 c.1 c.2) :
    ∀ t ∈ Icc 0 T, ∀ c ∈ cells, phi t c.1 c.2 = phi' t c.1 c.2 ∧ temp t c.1 c.2 = temp' t c.1 c.2 := by
  have key : ∀ phi temp : ℝ → Field2, (∀ t ∈ Icc 0 T, Copies2 cells σ (phi t) ∧ Copies2 cells σ (temp t)) →
      Evolves2 S st fr kind eps dx dy fa tm latent diff L withPhase mob cp cells T phi temp → (∀ c ∈ cells, 0 ≤ phi 0 c.1 c.2 ∧ phi 0 c.1 c.2 ≤ 1) →
      (∀ t ∈ Icc 0 T, ∀ c : cells, HasDerivAt (fun s => phi s c.1.1 c.1.2) ((sys2 hσ.1 S st fr kind eps dx dy tm latent diff L withPhase mob cp).phase
        (fun q => phi t q.1.1 q.1.2) (fun q => temp t q.1.1 q.1.2) c) t) ∧
      ∀ t ∈ Icc 0 T, ∀ c : cells, HasDerivAt (fun s => temp s c.1.1 c.1.2) ((sys2 hσ.1 S st fr kind eps dx dy tm latent diff L withPhase mob cp).heat
        (fun q => phi t q.1.1 q.1.2) (fun q => temp t q.1.1 q.1.2) c) t := fun phi temp hs he h0 => by
    have between := c131_between_2d_partial { S with misor := 0 } ⟨hi, hsc, fun h => by rw [ho] at h; cases h⟩ st (fun _ => fr) eps dx dy hdx hdy hst
      (fun t => meltForce2 kind fa tm latent (temp t)) (fun _ => mob) temp (fun _ _ _ => 0) cells T phi (fun _ _ c hc => hmob c hc)
      (fun _ _ _ _ => by simp) (fun _ _ _ _ => le_rfl) (fun _ _ c hc => hfr c hc)
      ⟨0, fun t ht c hc => by cases kind <;> simp [slant, meltForce2]⟩ (fun t ht => closed_of_copies2 (hs t ht).1 0 1)
      (fun t ht c hc => by
        obtain ⟨r, hr, hd, -⟩ := he t ht c hc
        refine ⟨r, ?_, hd⟩
        rw [← hr]
        simp [rate2, cellRate, pbgCell, ho]) h0
    have both : ∀ t ∈ Icc 0 T, ∀ c : cells, ∃ r, r = (sys2 hσ.1 S st fr kind eps dx dy tm latent diff L withPhase mob cp).phase
        (fun q => phi t q.1.1 q.1.2) (fun q => temp t q.1.1 q.1.2) c ∧ HasDerivAt (fun s => phi s c.1.1 c.1.2) r t ∧
        HasDerivAt (fun s => temp s c.1.1 c.1.2) (heatRate2 fr dx dy diff L withPhase (temp t) cp (fun _ _ => r) c.1.1 c.1.2) t := fun t ht c => by
      obtain ⟨r, hr, d1, d2⟩ := he t ht c.1 c.2
      refine ⟨r, ?_, d1, d2⟩
      obtain ⟨b0, b1⟩ := between t ht c.1 c.2
      have es := fun a b a1 a2 b1 b2 => stencil_eq2 hσ (hs t ht).1 c.1 c.2 a b a1 a2 b1 b2
      have et := fun a b a1 a2 b1 b2 => stencil_eq2 hσ (hs t ht).2 c.1 c.2 a b a1 a2 b1 b2
      have ec : phi t c.1.1 c.1.2 = ext2 hσ.1 (fun q => phi t q.1.1 q.1.2) c.1.1 c.1.2 := by
        simpa using es 0 0 (by norm_num) (by norm_num) (by norm_num) (by norm_num)
      have := rate_eq2 hσ.1 S hi ho st fr kind eps dx dy fa tm latent diff L withPhase mob cp (fun q => phi t q.1.1 q.1.2) (fun q => temp t q.1.1 q.1.2)
        (fun _ _ => 0) (temp t) c (hσ.2 _ c.2) b0 b1
      rw [← Option.some.injEq, ← this, ← hr]
      unfold rate2
      rw [← force_congr2 kind fa tm latent _ _ _ _ et, ← diff_congr2 st eps dx dy _ _ _ _ es, ← ec,
        frame_congr fr (not_upwind (hfr _ c.2)) dx (fun a => phi t a c.1.2) (fun a => ext2 hσ.1 (fun q => phi t q.1.1 q.1.2) a c.1.2) c.1.1
          (by simpa using es 1 0 (by norm_num) (by norm_num) (by norm_num) (by norm_num))
          (by simpa using es (-1) 0 (by norm_num) (by norm_num) (by norm_num) (by norm_num))]
    refine ⟨fun t ht c => ?_, fun t ht c => ?_⟩
    · obtain ⟨r, hr, d1, -⟩ := both t ht c
      rw [← hr]; exact d1
    · obtain ⟨r, hr, -, d2⟩ := both t ht c
      refine d2.congr_deriv ?_
      rw [hr, ← heat_eq2, heat_split2, heat_split2]
      have et := fun a b a1 a2 b1 b2 => stencil_eq2 hσ (hs t ht).2 c.1 c.2 a b a1 a2 b1 b2
      rw [diff_congr2 .simple 1 dx dy _ _ _ _ et,
        frame_congr fr (not_upwind (hfr _ c.2)) dx (fun a => temp t a c.1.2) (fun a => ext2 hσ.1 (fun q => temp t q.1.1 q.1.2) a c.1.2) c.1.1
          (by simpa using et 1 0 (by norm_num) (by norm_num) (by norm_num) (by norm_num))
          (by simpa using et (-1) 0 (by norm_num) (by norm_num) (by norm_num) (by norm_num))]
  obtain ⟨k1, k2⟩ := key phi temp hs he h0
  obtain ⟨k1', k2'⟩ := key phi' temp' hs' he' fun c hc => by rw [← (e c hc).1]; exact h0 c hc
  intro t ht c hc
  obtain ⟨u1, u2⟩ := unique_solution _ T (fun t (q : cells) => phi t q.1.1 q.1.2) (fun t q => temp t q.1.1 q.1.2) (fun t q => phi' t q.1.1 q.1.2)
    (fun t q => temp' t q.1.1 q.1.2) k1 k2 k1' k2' (funext fun q => (e q.1 q.2).1) (funext fun q => (e q.1 q.2).2) t ht
  exact ⟨congrFun u1 ⟨c, hc⟩, congrFun u2 ⟨c, hc⟩⟩

end two

/-! ## Three dimensions -/

section three

variable {cells : Finset (ℤ × ℤ × ℤ)} {σ : ℤ × ℤ × ℤ → ℤ × ℤ × ℤ}

def ext3 (hσ : ∀ q, σ q ∈ cells) (x : cells → ℝ) : Field3 := fun i j k => x ⟨σ (i, j, k), hσ (i, j, k)⟩

noncomputable def weighted3 (kind : Kind) (T : Field3) (i j k : ℤ) : ℝ :=
  match kind with
  | .delta => 0.75 * T i j k + 0.25 / 6 * (T (i - 1) j k + T i (j - 1) k + T (i + 1) j k + T i (j + 1) k + T i j (k - 1) + T i j (k + 1))
  | .temperature => T i j k

noncomputable def sys3 (hσ : ∀ q, σ q ∈ cells) (S : Setting) (fr : Frame) (kind : Kind) (eps dx dy dz tm latent diff L : ℝ) (withPhase : Bool)
    (mob cp : Field3) : Sys cells where
  A c := linOf (fun x => mob c.1.1 c.1.2.1 c.1.2.2 * diffTerm3 eps dx dy dz (ext3 hσ x) c.1.1 c.1.2.1 c.1.2.2
      + frameTerm fr dx (fun a => ext3 hσ x a c.1.2.1 c.1.2.2) c.1.1)
    fun r u w => by
      have e1 : ext3 hσ (r • u + w) = fun a b d => r * ext3 hσ u a b d + ext3 hσ w a b d := rfl
      rw [e1, diff3_lin, frame_lin fr dx r (fun a => ext3 hσ u a c.1.2.1 c.1.2.2) (fun a => ext3 hσ w a c.1.2.1 c.1.2.2)]
      ring
  H c := linOf (fun x => diff * diffTerm3 1 dx dy dz (ext3 hσ x) c.1.1 c.1.2.1 c.1.2.2 + frameTerm fr dx (fun a => ext3 hσ x a c.1.2.1 c.1.2.2) c.1.1)
    fun r u w => by
      have e1 : ext3 hσ (r • u + w) = fun a b d => r * ext3 hσ u a b d + ext3 hσ w a b d := rfl
      rw [e1, diff3_lin, frame_lin fr dx r (fun a => ext3 hσ u a c.1.2.1 c.1.2.2) (fun a => ext3 hσ w a c.1.2.1 c.1.2.2)]
      ring
  W c := linOf (fun x => weighted3 kind (ext3 hσ x) c.1.1 c.1.2.1 c.1.2.2) fun r u w => by
      have e1 : ext3 hσ (r • u + w) = fun a b d => r * ext3 hσ u a b d + ext3 hσ w a b d := rfl
      rw [e1]
      cases kind <;> simp only [weighted3]
      ring
  m c := mob c.1.1 c.1.2.1 c.1.2.2
  g c := if withPhase then L / cp c.1.1 c.1.2.1 c.1.2.2 else 0
  interp := S.interp
  scale := S.scale
  α := latent / tm
  β := latent / tm * tm

theorem weighted_means3 (hσ : ∀ q, σ q ∈ cells) (kind : Kind) (x : cells → ℝ) (R : ℝ) (h : ∀ q, |x q| ≤ R) (i j k : ℤ) :
    |weighted3 kind (ext3 hσ x) i j k| ≤ R := by
  have b : ∀ i j k, -R ≤ ext3 hσ x i j k ∧ ext3 hσ x i j k ≤ R := fun i j k => abs_le.1 (h _)
  cases kind with
  | temperature => exact h _
  | delta =>
    simp only [weighted3]
    obtain ⟨a1, a2⟩ := b i j k
    obtain ⟨b1, b2⟩ := b (i - 1) j k
    obtain ⟨c1, c2⟩ := b i (j - 1) k
    obtain ⟨d1, d2⟩ := b (i + 1) j k
    obtain ⟨e1, e2⟩ := b i (j + 1) k
    obtain ⟨f1, f2⟩ := b i j (k - 1)
    obtain ⟨g1, g2⟩ := b i j (k + 1)
    rw [abs_le]; constructor <;> linarith

theorem pulls_a3 (hσ : Wrap cells σ) (S : Setting) (fr : Frame) (kind : Kind) (eps dx dy dz tm latent diff L : ℝ) (withPhase : Bool)
    (mob cp : Field3) (hdx : 0 < dx) (hdy : 0 < dy) (hdz : 0 < dz)
    (hmob : ∀ c ∈ cells, 0 ≤ mob c.1 c.2.1 c.2.2) (hfr : ∀ c ∈ cells, FrameOk fr dx eps 1 (mob c.1 c.2.1 c.2.2)) (c : cells) :
    Pulls ((sys3 hσ.1 S fr kind eps dx dy dz tm latent diff L withPhase mob cp).A c) c := by
  constructor
  · intro x hx
    refine pull3 fr eps dx dy dz (mob c.1.1 c.1.2.1 c.1.2.2) hdx hdy hdz (hmob _ c.2) (hfr _ c.2) (ext3 hσ.1 x) c.1.1 c.1.2.1 c.1.2.2
      fun a b d _ _ _ _ _ _ => ?_
    have e : ext3 hσ.1 x c.1.1 c.1.2.1 c.1.2.2 = x c := congrArg x (Subtype.ext (hσ.2 _ c.2))
    rw [e]; exact hx _
  · intro k
    show mob c.1.1 c.1.2.1 c.1.2.2 * diffTerm3 eps dx dy dz (fun _ _ _ => k) c.1.1 c.1.2.1 c.1.2.2 + frameTerm fr dx (fun _ => k) c.1.1 = 0
    rw [diff3_const, frame_const _ _ _ _ (not_upwind (hfr _ c.2))]; ring

theorem pulls_h3 (hσ : Wrap cells σ) (S : Setting) (fr : Frame) (kind : Kind) (eps dx dy dz tm latent diff L : ℝ) (withPhase : Bool)
    (mob cp : Field3) (hdx : 0 < dx) (hdy : 0 < dy) (hdz : 0 < dz) (hdiff : 0 ≤ diff) (hsl : Slow fr dx diff) (c : cells) :
    Pulls ((sys3 hσ.1 S fr kind eps dx dy dz tm latent diff L withPhase mob cp).H c) c := by
  constructor
  · intro x hx
    refine pull3 fr 1 dx dy dz diff hdx hdy hdz hdiff (slow_ok hsl) (ext3 hσ.1 x) c.1.1 c.1.2.1 c.1.2.2 fun a b d _ _ _ _ _ _ => ?_
    have e : ext3 hσ.1 x c.1.1 c.1.2.1 c.1.2.2 = x c := congrArg x (Subtype.ext (hσ.2 _ c.2))
    rw [e]; exact hx _
  · intro k
    show diff * diffTerm3 1 dx dy dz (fun _ _ _ => k) c.1.1 c.1.2.1 c.1.2.2 + frameTerm fr dx (fun _ => k) c.1.1 = 0
    rw [diff3_const, frame_const _ _ _ _ (not_upwind (slow_ok hsl))]; ring

theorem rate_eq3 (hσ : ∀ q, σ q ∈ cells) (S : Setting) (hi : S.interp = 'p' ∨ S.interp = 'h') (ho : S.orient = false) (fr : Frame)
    (kind : Kind) (eps dx dy dz fa tm latent diff L : ℝ) (withPhase : Bool) (mob cp : Field3) (x w : cells → ℝ) (ogm temp : Field3) (c : cells) (hc : σ c.1 = c.1)
    (h0 : 0 ≤ x c) (h1 : x c ≤ 1) :
    rate3 S .simple fr eps dx dy dz (meltForce3 kind fa tm latent (ext3 hσ w)) mob temp ogm (ext3 hσ x) c.1.1 c.1.2.1 c.1.2.2
      = some ((sys3 hσ S fr kind eps dx dy dz tm latent diff L withPhase mob cp).phase x w c) := by
  have e : ext3 hσ x c.1.1 c.1.2.1 c.1.2.2 = x c := congrArg x (Subtype.ext hc)
  show (cellRate S _ _ (diffTerm3 eps dx dy dz (ext3 hσ x) c.1.1 c.1.2.1 c.1.2.2) (ext3 hσ x c.1.1 c.1.2.1 c.1.2.2) _ _).map _
    = some (mob c.1.1 c.1.2.1 c.1.2.2 * diffTerm3 eps dx dy dz (ext3 hσ x) c.1.1 c.1.2.1 c.1.2.2
    + frameTerm fr dx (fun a => ext3 hσ x a c.1.2.1 c.1.2.2) c.1.1
    + mob c.1.1 c.1.2.1 c.1.2.2 * reaction S.interp S.scale (latent / tm * tm - latent / tm * weighted3 kind (ext3 hσ w) c.1.1 c.1.2.1 c.1.2.2) (x c))
  rw [e]
  cases kind with
  | delta =>
    simp only [meltForce3, weighted3]
    rw [cellRate_melting S hi ho _ _ _ _ _ _ _ _ h0 h1, Option.map_some, Option.some.injEq, mul_sub (latent / tm) tm]
    ring
  | temperature =>
    simp only [meltForce3, weighted3]
    rw [cellRate_eq S hi ho _ _ _ _ _ _ _ h0 h1, Option.map_some, Option.some.injEq]
    have d : freeLiquid fa latent tm (ext3 hσ w c.1.1 c.1.2.1 c.1.2.2) - fa = latent / tm * tm - latent / tm * ext3 hσ w c.1.1 c.1.2.1 c.1.2.2 := by
      unfold freeLiquid; ring
    rw [d]; ring

theorem heat_eq3 (hσ : ∀ q, σ q ∈ cells) (S : Setting) (fr : Frame)
    (kind : Kind) (eps dx dy dz tm latent diff L : ℝ) (withPhase : Bool) (mob cp : Field3) (x w : cells → ℝ) (c : cells) :
    heatRate3 fr dx dy dz diff L withPhase (ext3 hσ w) cp
        (fun _ _ _ => (sys3 hσ S fr kind eps dx dy dz tm latent diff L withPhase mob cp).phase x w c) c.1.1 c.1.2.1 c.1.2.2
      = (sys3 hσ S fr kind eps dx dy dz tm latent diff L withPhase mob cp).heat x w c := by
  rw [heat_split3]
  show _ = diff * diffTerm3 1 dx dy dz (ext3 hσ w) c.1.1 c.1.2.1 c.1.2.2 + frameTerm fr dx (fun a => ext3 hσ w a c.1.2.1 c.1.2.2) c.1.1
    + (if withPhase then L / cp c.1.1 c.1.2.1 c.1.2.2 else 0) * _
  unfold released
  split_ifs <;> ring

/-- **C146** (3D, existence). -/
theorem c146_exists_3d (S : Setting) (hi : S.interp = 'p' ∨ S.interp = 'h') (ho : S.orient = false) (hsc : 0 ≤ S.scale) (fr : Frame)
    (kind : Kind) (eps dx dy dz fa tm latent diff L : ℝ) (hdx : 0 < dx) (hdy : 0 < dy) (hdz : 0 < dz) (hdiff : 0 ≤ diff) (withPhase : Bool) (mob cp : Field3)
    (hne : cells.Nonempty) (hσ : Wrap cells σ) (hmob : ∀ c ∈ cells, 0 ≤ mob c.1 c.2.1 c.2.2)
    (hfr : ∀ c ∈ cells, FrameOk fr dx eps 1 (mob c.1 c.2.1 c.2.2)) (hsl : Slow fr dx diff) (T : ℝ) (hT : 0 ≤ T) (phi0 temp0 : Field3)
    (h0 : ∀ c ∈ cells, 0 ≤ phi0 c.1 c.2.1 c.2.2 ∧ phi0 c.1 c.2.1 c.2.2 ≤ 1) :
    ∃ phi temp : ℝ → Field3, (∀ c ∈ cells, phi 0 c.1 c.2.1 c.2.2 = phi0 c.1 c.2.1 c.2.2 ∧ temp 0 c.1 c.2.1 c.2.2 = temp0 c.1 c.2.1 c.2.2) ∧
      (∀ t, Copies3 cells σ (phi t) ∧ Copies3 cells σ (temp t)) ∧
      Evolves3 S fr kind eps dx dy dz fa tm latent diff L withPhase mob cp cells T phi temp ∧
      ∀ t ∈ Icc 0 T, ∀ c ∈ cells, 0 ≤ phi t c.1 c.2.1 c.2.2 ∧ phi t c.1 c.2.1 c.2.2 ≤ 1 := by
  have : Nonempty cells := hne.to_subtype
  obtain ⟨φ, τ, e1, e2, b, d1, d2⟩ := exists_solution (sys3 hσ.1 S fr kind eps dx dy dz tm latent diff L withPhase mob cp) hsc
    (pulls_a3 hσ S fr kind eps dx dy dz tm latent diff L withPhase mob cp hdx hdy hdz hmob hfr)
    (pulls_h3 hσ S fr kind eps dx dy dz tm latent diff L withPhase mob cp hdx hdy hdz hdiff hsl)
    (fun c x R hx => weighted_means3 hσ.1 kind x R hx _ _ _) T hT (fun c => phi0 c.1.1 c.1.2.1 c.1.2.2) (fun c => temp0 c.1.1 c.1.2.1 c.1.2.2)
    (fun c => h0 c.1 c.2)
  have at_cell : ∀ (x : cells → ℝ) (c : ℤ × ℤ × ℤ) (hc : c ∈ cells), ext3 hσ.1 x c.1 c.2.1 c.2.2 = x ⟨c, hc⟩ := fun x c hc =>
    congrArg x (Subtype.ext (hσ.2 c hc))
  have copies : ∀ x : cells → ℝ, Copies3 cells σ (ext3 hσ.1 x) := fun x c hc a b d _ _ _ _ _ _ =>
    ⟨hσ.1 _, congrArg x (Subtype.ext (hσ.2 _ (hσ.1 _)).symm)⟩
  refine ⟨fun t => ext3 hσ.1 (φ t), fun t => ext3 hσ.1 (τ t), fun c hc => ?_, fun t => ⟨copies _, copies _⟩, fun t ht c hc => ?_, fun t ht c hc => ?_⟩
  · exact ⟨(at_cell _ c hc).trans (congrFun e1 ⟨c, hc⟩), (at_cell _ c hc).trans (congrFun e2 ⟨c, hc⟩)⟩
  · obtain ⟨b0, b1⟩ := b t ht ⟨c, hc⟩
    refine ⟨_, rate_eq3 hσ.1 S hi ho fr kind eps dx dy dz fa tm latent diff L withPhase mob cp (φ t) (τ t) _ _ ⟨c, hc⟩ (hσ.2 c hc) b0 b1, ?_, ?_⟩
    · have := d1 t ht ⟨c, hc⟩
      simp only [at_cell _ c hc]; exact this
    · have := d2 t ht ⟨c, hc⟩
      rw [heat_eq3 hσ.1 S fr kind eps dx dy dz tm latent diff L withPhase mob cp (φ t) (τ t) ⟨c, hc⟩]
      simp only [at_cell _ c hc]; exact this
  · simp only [at_cell _ c hc]; exact b t ht ⟨c, hc⟩

/-- Agreement of two fields on the direct neighbours. -/
def Near (u w : Field3) (i j k : ℤ) : Prop :=
  u i j k = w i j k ∧ u (i + 1) j k = w (i + 1) j k ∧ u (i - 1) j k = w (i - 1) j k ∧ u i (j + 1) k = w i (j + 1) k ∧
    u i (j - 1) k = w i (j - 1) k ∧ u i j (k + 1) = w i j (k + 1) ∧ u i j (k - 1) = w i j (k - 1)

theorem near3 (hσ : Wrap cells σ) {u : Field3} (hu : Copies3 cells σ u) (c : ℤ × ℤ × ℤ) (hc : c ∈ cells) :
    Near u (ext3 hσ.1 fun q => u q.1.1 q.1.2.1 q.1.2.2) c.1 c.2.1 c.2.2 := by
  have key : ∀ a b d : ℤ, -1 ≤ a → a ≤ 1 → -1 ≤ b → b ≤ 1 → -1 ≤ d → d ≤ 1 → u (c.1 + a) (c.2.1 + b) (c.2.2 + d)
      = ext3 hσ.1 (fun q => u q.1.1 q.1.2.1 q.1.2.2) (c.1 + a) (c.2.1 + b) (c.2.2 + d) :=
    fun a b d a1 a2 b1 b2 d1 d2 => (hu c hc a b d a1 a2 b1 b2 d1 d2).2
  refine ⟨?_, ?_, ?_, ?_, ?_, ?_, ?_⟩
  · simpa using key 0 0 0 (by norm_num) (by norm_num) (by norm_num) (by norm_num) (by norm_num) (by norm_num)
  · simpa using key 1 0 0 (by norm_num) (by norm_num) (by norm_num) (by norm_num) (by norm_num) (by norm_num)
  · simpa [← sub_eq_add_neg] using key (-1) 0 0 (by norm_num) (by norm_num) (by norm_num) (by norm_num) (by norm_num) (by norm_num)
  · simpa using key 0 1 0 (by norm_num) (by norm_num) (by norm_num) (by norm_num) (by norm_num) (by norm_num)
  · simpa [← sub_eq_add_neg] using key 0 (-1) 0 (by norm_num) (by norm_num) (by norm_num) (by norm_num) (by norm_num) (by norm_num)
  · simpa using key 0 0 1 (by norm_num) (by norm_num) (by norm_num) (by norm_num) (by norm_num) (by norm_num)
  · simpa [← sub_eq_add_neg] using key 0 0 (-1) (by norm_num) (by norm_num) (by norm_num) (by norm_num) (by norm_num) (by norm_num)

theorem diff_congr3 (eps dx dy dz : ℝ) (u w : Field3) (i j k : ℤ) (h : Near u w i j k) : diffTerm3 eps dx dy dz u i j k = diffTerm3 eps dx dy dz w i j k := by
  obtain ⟨h1, h2, h3, h4, h5, h6, h7⟩ := h
  simp only [diffTerm3, div3, gradFlux3X, gradFlux3Y, gradFlux3Z, add_sub_cancel_right, h1, h2, h3, h4, h5, h6, h7]

theorem force_congr3 (kind : Kind) (fa tm latent : ℝ) (u w : Field3) (i j k : ℤ) (h : Near u w i j k) :
    meltForce3 kind fa tm latent u i j k = meltForce3 kind fa tm latent w i j k := by
  obtain ⟨h1, h2, h3, h4, h5, h6, h7⟩ := h
  cases kind <;> simp only [meltForce3, h1, h2, h3, h4, h5, h6, h7]

/-- **C146** (3D, uniqueness). -/
theorem c146_unique_3d (S : Setting) (hi : S.interp = 'p' ∨ S.interp = 'h') (ho : S.orient = false) (hsc : 0 ≤ S.scale) (fr : Frame)
    (kind : Kind) (eps dx dy dz fa tm latent diff L : ℝ) (hdx : 0 < dx) (hdy : 0 < dy) (hdz : 0 < dz) (withPhase : Bool) (mob cp : Field3)
    (hσ : Wrap cells σ) (hmob : ∀ c ∈ cells, 0 ≤ mob c.1 c.2.1 c.2.2)
    (hfr : ∀ c ∈ cells, FrameOk fr dx eps 1 (mob c.1 c.2.1 c.2.2)) (T : ℝ) (phi temp phi' temp' : ℝ → Field3)
    (hs : ∀ t ∈ Icc 0 T, Copies3 cells σ (phi t) ∧ Copies3 cells σ (temp t)) (hs' : ∀ t ∈ Icc 0 T, Copies3 cells σ (phi' t) ∧ Copies3 cells σ (temp' t))
    (he : Evolves3 S fr kind eps dx dy dz fa tm latent diff L withPhase mob cp cells T phi temp)
    (he' : Evolves3 S fr kind eps dx dy dz fa tm latent diff L withPhase mob cp cells T phi' temp')
    (h0 : ∀ c ∈ cells, 0 ≤ phi 0 c.1 c.2.1 c.2.2 ∧ phi 0 c.1 c.2.1 c.2.2 ≤ 1)
    (e : ∀ c ∈ cells, phi 0 c.1 c.2.1 c.2.2 = phi' 0 c.1 c.2.1 c.2.2 ∧ temp 0 c.1 c.2.1 c.2.2 = temp' 0 c.1 c.2.1 c.2.2) :
    ∀ t ∈ Icc 0 T, ∀ c ∈ cells, phi t c.1 c.2.1 c.2.2 = phi' t c.1 c.2.1 c.2.2 ∧ temp t c.1 c.2.1 c.2.2 = temp' t c.1 c.2.1 c.2.2 := by
  have key : ∀ phi temp : ℝ → Field3, (∀ t ∈ Icc 0 T, Copies3 cells σ (phi t) ∧ Copies3 cells σ (temp t)) →
      Evolves3 S fr kind eps dx dy dz fa tm latent diff L withPhase mob cp cells T phi temp →
      (∀ c ∈ cells, 0 ≤ phi 0 c.1 c.2.1 c.2.2 ∧ phi 0 c.1 c.2.1 c.2.2 ≤ 1) →
      (∀ t ∈ Icc 0 T, ∀ c : cells, HasDerivAt (fun s => phi s c.1.1 c.1.2.1 c.1.2.2)
        ((sys3 hσ.1 S fr kind eps dx dy dz tm latent diff L withPhase mob cp).phase
        (fun q => phi t q.1.1 q.1.2.1 q.1.2.2) (fun q => temp t q.1.1 q.1.2.1 q.1.2.2) c) t) ∧
      ∀ t ∈ Icc 0 T, ∀ c : cells, HasDerivAt (fun s => temp s c.1.1 c.1.2.1 c.1.2.2)
        ((sys3 hσ.1 S fr kind eps dx dy dz tm latent diff L withPhase mob cp).heat
        (fun q => phi t q.1.1 q.1.2.1 q.1.2.2) (fun q => temp t q.1.1 q.1.2.1 q.1.2.2) c) t := fun phi temp hs he h0 => by
    have between := c131_between_3d_partial { S with misor := 0 } ⟨hi, hsc, fun h => by rw [ho] at h; cases h⟩ .simple (fun _ => fr) eps dx dy dz hdx hdy hdz
      (fun t => meltForce3 kind fa tm latent (temp t)) (fun _ => mob) temp (fun _ _ _ _ => 0) cells T phi (fun _ _ c hc => hmob c hc)
      (fun _ _ _ _ => by simp) (fun _ _ _ _ => le_rfl) (fun _ _ c hc => hfr c hc)
      ⟨0, fun t ht c hc => by cases kind <;> simp [slant, meltForce3]⟩ (fun t ht => closed_of_copies3 (hs t ht).1 0 1)
      (fun t ht c hc => by
        obtain ⟨r, hr, hd, -⟩ := he t ht c hc
        refine ⟨r, ?_, hd⟩
        rw [← hr]
        simp [rate3, cellRate, pbgCell, ho]) h0
    have both : ∀ t ∈ Icc 0 T, ∀ c : cells, ∃ r, r = (sys3 hσ.1 S fr kind eps dx dy dz tm latent diff L withPhase mob cp).phase
        (fun q => phi t q.1.1 q.1.2.1 q.1.2.2) (fun q => temp t q.1.1 q.1.2.1 q.1.2.2) c ∧ HasDerivAt (fun s => phi s c.1.1 c.1.2.1 c.1.2.2) r t ∧
        HasDerivAt (fun s => temp s c.1.1 c.1.2.1 c.1.2.2)
          (heatRate3 fr dx dy dz diff L withPhase (temp t) cp (fun _ _ _ => r) c.1.1 c.1.2.1 c.1.2.2) t := fun t ht c => by
      obtain ⟨r, hr, d1, d2⟩ := he t ht c.1 c.2
      refine ⟨r, ?_, d1, d2⟩
      obtain ⟨b0, b1⟩ := between t ht c.1 c.2
      have es := near3 hσ (hs t ht).1 c.1 c.2
      have et := near3 hσ (hs t ht).2 c.1 c.2
      have := rate_eq3 hσ.1 S hi ho fr kind eps dx dy dz fa tm latent diff L withPhase mob cp (fun q => phi t q.1.1 q.1.2.1 q.1.2.2)
        (fun q => temp t q.1.1 q.1.2.1 q.1.2.2) (fun _ _ _ => 0) (temp t) c (hσ.2 _ c.2) b0 b1
      rw [← Option.some.injEq, ← this, ← hr]
      have ed := diff_congr3 eps dx dy dz _ _ _ _ _ es
      unfold diffTerm3 at ed
      unfold rate3
      simp only []
      rw [← force_congr3 kind fa tm latent _ _ _ _ _ et, ← ed, ← es.1,
        frame_congr fr (not_upwind (hfr _ c.2)) dx (fun a => phi t a c.1.2.1 c.1.2.2)
          (fun a => ext3 hσ.1 (fun q => phi t q.1.1 q.1.2.1 q.1.2.2) a c.1.2.1 c.1.2.2) c.1.1 es.2.1 (by simpa [← sub_eq_add_neg] using es.2.2.1)]
    refine ⟨fun t ht c => ?_, fun t ht c => ?_⟩
    · obtain ⟨r, hr, d1, -⟩ := both t ht c
      rw [← hr]; exact d1
    · obtain ⟨r, hr, -, d2⟩ := both t ht c
      refine d2.congr_deriv ?_
      rw [hr, ← heat_eq3, heat_split3, heat_split3]
      have et := near3 hσ (hs t ht).2 c.1 c.2
      rw [diff_congr3 1 dx dy dz _ _ _ _ _ et,
        frame_congr fr (not_upwind (hfr _ c.2)) dx (fun a => temp t a c.1.2.1 c.1.2.2)
          (fun a => ext3 hσ.1 (fun q => temp t q.1.1 q.1.2.1 q.1.2.2) a c.1.2.1 c.1.2.2) c.1.1 et.2.1 (by simpa [← sub_eq_add_neg] using et.2.2.1)]
  obtain ⟨k1, k2⟩ := key phi temp hs he h0
  obtain ⟨k1', k2'⟩ := key phi' temp' hs' he' fun c hc => by rw [← (e c hc).1]; exact h0 c hc
  intro t ht c hc
  obtain ⟨u1, u2⟩ := unique_solution _ T (fun t (q : cells) => phi t q.1.1 q.1.2.1 q.1.2.2) (fun t q => temp t q.1.1 q.1.2.1 q.1.2.2)
    (fun t q => phi' t q.1.1 q.1.2.1 q.1.2.2) (fun t q => temp' t q.1.1 q.1.2.1 q.1.2.2) k1 k2 k1' k2'
    (funext fun q => (e q.1 q.2).1) (funext fun q => (e q.1 q.2).2) t ht
  exact ⟨congrFun u1 ⟨c, hc⟩, congrFun u2 ⟨c, hc⟩⟩

end three

/-! ## The hypotheses are met -/

theorem wrap_periodic (nx ny : ℤ) (hx : 0 < nx) (hy : 0 < ny) : Wrap (box2 nx ny) fun q => (q.1 % nx, q.2 % ny) := by
  refine ⟨fun q => ?_, fun c hc => ?_⟩
  · simp only [box2, Finset.mem_product, Finset.mem_Ico]
    exact ⟨⟨Int.emod_nonneg _ hx.ne', Int.emod_lt_of_pos _ hx⟩, Int.emod_nonneg _ hy.ne', Int.emod_lt_of_pos _ hy⟩
  · simp only [box2, Finset.mem_product, Finset.mem_Ico] at hc
    exact Prod.ext (Int.emod_eq_of_lt hc.1.1 hc.1.2) (Int.emod_eq_of_lt hc.2.1 hc.2.2)

theorem wrap_mirror (nx ny nz : ℤ) (hx : 0 < nx) (hy : 0 < ny) (hz : 0 < nz) :
    Wrap (box3 nx ny nz) fun q => (max 0 (min q.1 (nx - 1)), max 0 (min q.2.1 (ny - 1)), max 0 (min q.2.2 (nz - 1))) := by
  refine ⟨fun q => ?_, fun c hc => ?_⟩
  · simp only [box3, Finset.mem_product, Finset.mem_Ico]
    refine ⟨⟨by omega, by omega⟩, ⟨by omega, by omega⟩, by omega, by omega⟩
  · simp only [box3, Finset.mem_product, Finset.mem_Ico] at hc
    refine Prod.ext ?_ (Prod.ext ?_ ?_) <;> simp only [] <;> omega

/-- A periodic domain of 8 × 8 cells in a frame moving at speed 1, solid in the left half, undercooled liquid in the right half, run to time 100. -/
example : ∃ phi temp : ℝ → Field2, (∀ c ∈ box2 8 8, phi 0 c.1 c.2 = (if c.1 < 4 then 1 else 0) ∧ temp 0 c.1 c.2 = 0.9) ∧
    Evolves2 ⟨'p', 'q', 'q', 1, 0, 0, false⟩ .simple (.centred 1) .delta 1 1 1 0 1 1 1 1 true (fun _ _ => 1) (fun _ _ => 1) (box2 8 8) 100 phi temp := by
  obtain ⟨phi, temp, h0, -, h2, -⟩ := c146_exists_2d (cells := box2 8 8) (σ := fun q => (q.1 % 8, q.2 % 8)) ⟨'p', 'q', 'q', 1, 0, 0, false⟩ (Or.inl rfl) rfl
    (by norm_num) .simple (.centred 1) .delta 1 1 1 0 1 1 1 1 (by norm_num) (by norm_num) (fun h => by cases h) (by norm_num) true (fun _ _ => 1)
    (fun _ _ => 1) ⟨(0, 0), by simp [box2]⟩ (wrap_periodic 8 8 (by norm_num) (by norm_num)) (fun _ _ => by norm_num)
    (fun _ _ => by simp [FrameOk, share]) (by simp [Slow]) 100 (by norm_num) (fun i _ => if i < 4 then 1 else 0) (fun _ _ => 0.9)
    (fun c _ => by split_ifs <;> norm_num)
  exact ⟨phi, temp, h0, h2⟩

example : ∃ phi temp : ℝ → Field3, (∀ c ∈ box3 4 4 4, phi 0 c.1 c.2.1 c.2.2 = (if c.1 < 2 then 1 else 0) ∧ temp 0 c.1 c.2.1 c.2.2 = 0.9) ∧
    Evolves3 ⟨'h', 'q', 'q', 1, 0, 0, false⟩ .fixed .temperature 1 1 1 1 0 1 1 1 1 true (fun _ _ _ => 1) (fun _ _ _ => 1) (box3 4 4 4) 100 phi temp := by
  obtain ⟨phi, temp, h0, -, h2, -⟩ := c146_exists_3d (cells := box3 4 4 4) (σ := _) ⟨'h', 'q', 'q', 1, 0, 0, false⟩ (Or.inr rfl) rfl
    (by norm_num) .fixed .temperature 1 1 1 1 0 1 1 1 1 (by norm_num) (by norm_num) (by norm_num) (by norm_num) true (fun _ _ _ => 1)
    (fun _ _ _ => 1) ⟨(0, 0, 0), by simp [box3]⟩ (wrap_mirror 4 4 4 (by norm_num) (by norm_num) (by norm_num)) (fun _ _ => by norm_num)
    (fun _ _ => trivial) trivial 100 (by norm_num) (fun i _ _ => if i < 2 then 1 else 0) (fun _ _ _ => 0.9)
    (fun c _ => by split_ifs <;> norm_num)
  exact ⟨phi, temp, h0, h2⟩

end AMPE.MeltExist.Props
