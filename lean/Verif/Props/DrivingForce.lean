import Verif.Proofs.CellLoop
import Mathlib.Tactic.NormNum
import Mathlib.Tactic.FieldSimp

/-!
# C105: driving force of a patch, and what is plotted of it

Specification: arrays are described by the fields they hold, cell by cell (`Holds`).
-/

namespace AMPE.DrivingForce.Props

/-- The array `a` with box `g` holds the field `u` of `n` components, on a set of cells. -/
def Holds (a : ℤ → ℝ) (g : Box) (n : ℕ) (dom : Cell → Prop) (u : Cell → Fin n → ℝ) : Prop :=
  ∀ c, dom c → ∀ p : Fin n, a (g.plane p c) = u c p

/-- Fields of a patch. -/
structure Fields (n m : ℕ) where
  te : Cell → ℝ
  pf : Cell → Fin n → ℝ
  cl : Cell → Fin m → ℝ
  ca : Cell → Fin m → ℝ
  cb : Cell → Fin m → ℝ

/-- The arrays hold the fields on the patch. -/
structure State {n m : ℕ} (three : Bool) (b : Box) (w : Widths) (s : Mem) (u : Fields n m) : Prop where
  te : Holds s.te (b.grow three w.te) 1 b.Has fun c _ => u.te c
  pf : Holds s.pf (b.grow three w.pf) n b.Has u.pf
  cl : Holds s.cl (b.grow three w.ci) m b.Has u.cl
  ca : Holds s.ca (b.grow three w.ci) m b.Has u.ca
  cb : Holds s.cb (b.grow three w.ci) m b.Has u.cb

/-- Ghost widths are not negative. -/
def Widths.Ok (w : Widths) : Prop := 0 ≤ w.te ∧ 0 ≤ w.pf ∧ 0 ≤ w.ci ∧ 0 ≤ w.f ∧ 0 ≤ w.rhs

/-- What the driving force of a cell is to be computed from: the fields of that cell and the energy densities at its temperature and
compositions. -/
noncomputable def here {n m : ℕ} (th : Thermo m) (u : Fields n m) (c : Cell) : Local n m where
  te := u.te c
  pf := u.pf c
  cl := u.cl c
  ca := u.ca c
  cb := u.cb c
  fl := th.eL (u.te c) (u.cl c) * th.vL (u.te c) (u.cl c)
  fa := th.eA (u.te c) (u.ca c) * th.vA (u.te c) (u.ca c)
  fb := th.eB (u.te c) (u.cb c) * th.vB (u.te c) (u.cb c)

variable {n m : ℕ}

/-! ## Energies -/

theorem energyLoop_eq (e inv : ℝ → (Fin m → ℝ) → ℝ) (three : Bool) (b : Box) (w : Widths) (te ci f : ℤ → ℝ) :
    energyLoop e inv three b w te ci f = b.list.foldl (fun f c => Function.update f ((b.grow three w.f).plane 0 c)
      ((fun (_ : ℝ) c => e (te ((b.grow three w.te).plane 0 c)) (fun s : Fin m => ci ((b.grow three w.ci).plane s c))
        * inv (te ((b.grow three w.te).plane 0 c)) (fun s : Fin m => ci ((b.grow three w.ci).plane s c)))
        (f ((b.grow three w.f).plane 0 c)) c)) f := by
  unfold energyLoop
  simp only [Function.update_self, Function.update_idem]

theorem energyLoop_spec (e inv : ℝ → (Fin m → ℝ) → ℝ) (three : Bool) (b : Box) (w : Widths) (hw : Widths.Ok w) (te ci f : ℤ → ℝ)
    (T : Cell → ℝ) (x : Cell → Fin m → ℝ) (hT : Holds te (b.grow three w.te) 1 b.Has fun c _ => T c)
    (hx : Holds ci (b.grow three w.ci) m b.Has x) :
    (∀ c, b.Has c → energyLoop e inv three b w te ci f ((b.grow three w.f).plane 0 c) = e (T c) (x c) * inv (T c) (x c)) ∧
    (∀ q, (∀ c, b.Has c → (b.grow three w.f).plane 0 c ≠ q) → energyLoop e inv three b w te ci f q = f q) := by
  rw [energyLoop_eq]
  have h := cells_spec b (b.grow three w.f) (fun c hc => Box.has_grow hw.2.2.2.1 hc)
    (fun (_ : ℝ) c => e (te ((b.grow three w.te).plane 0 c)) (fun s : Fin m => ci ((b.grow three w.ci).plane s c))
        * inv (te ((b.grow three w.te).plane 0 c)) (fun s : Fin m => ci ((b.grow three w.ci).plane s c))) f
  refine ⟨fun c hc => ?_, h.2⟩
  rw [h.1 c hc]
  have h1 : te ((b.grow three w.te).plane 0 c) = T c := hT c hc 0
  have h2 : (fun s : Fin m => ci ((b.grow three w.ci).plane s c)) = x c := funext fun s => hx c hc s
  rw [h1, h2]

/-! ## Driving force -/

theorem addLoop_spec (force : Local n m → Fin n → ℝ) (three : Bool) (b : Box) (w : Widths) (hw : Widths.Ok w) (s : Mem) :
    (∀ c, b.Has c → ∀ p : Fin n, (addLoop force three b w s).rhs ((b.grow three w.rhs).plane p c)
      = s.rhs ((b.grow three w.rhs).plane p c) + force (readCell three b w s c) p) ∧
    (∀ q, (∀ c, b.Has c → ∀ p : Fin n, (b.grow three w.rhs).plane p c ≠ q) → (addLoop force three b w s).rhs q = s.rhs q) :=
  planes_spec n b (b.grow three w.rhs) (fun _ hc => Box.has_grow hw.2.2.2.2 hc)
    (fun v c p => v + force (readCell three b w s c) p) s.rhs

/-- The state in which the force is added. -/
theorem before {withB three : Bool} {b : Box} {w : Widths} (th : Thermo m) (s : Mem) :
    let s3 := (if withB then { s with
        fl := energyLoop th.eL th.vL three b w s.te s.cl s.fl
        fa := energyLoop th.eA th.vA three b w s.te s.ca s.fa
        fb := energyLoop th.eB th.vB three b w s.te s.cb s.fb }
      else { s with
        fl := energyLoop th.eL th.vL three b w s.te s.cl s.fl
        fa := energyLoop th.eA th.vA three b w s.te s.ca s.fa } : Mem)
    ∀ force : Local n m → Fin n → ℝ, evaluate th force withB three b w s = addLoop force three b w s3 := by
  intro s3 force
  cases withB <;> rfl

/-- **C105.** The rate of every order parameter in every cell of the patch is incremented by the driving force computed from that cell's
temperature, order parameters and phase compositions with the energies of that temperature and those compositions, whatever the arrays of
energies held before; no other entry of the rate changes, and the energies stored are those.  If the energy of the third phase is not
computed the force must not use it. -/
theorem c105_rate (th : Thermo m) (force : Local n m → Fin n → ℝ) (withB three : Bool) (b : Box) (w : Widths) (hw : Widths.Ok w) (s : Mem)
    (u : Fields n m) (hs : State three b w s u)
    (hB : withB = false → ∀ (l : Local n m) (x : ℝ), force { l with fb := x } = force l) :
    (∀ c, b.Has c → ∀ p : Fin n, (evaluate th force withB three b w s).rhs ((b.grow three w.rhs).plane p c)
      = s.rhs ((b.grow three w.rhs).plane p c) + force (here th u c) p) ∧
    (∀ q, (∀ c, b.Has c → ∀ p : Fin n, (b.grow three w.rhs).plane p c ≠ q) → (evaluate th force withB three b w s).rhs q = s.rhs q) ∧
    (∀ c, b.Has c → (evaluate th force withB three b w s).fl ((b.grow three w.f).plane 0 c) = (here th u c).fl ∧
      (evaluate th force withB three b w s).fa ((b.grow three w.f).plane 0 c) = (here th u c).fa) := by
  have hL := energyLoop_spec th.eL th.vL three b w hw s.te s.cl s.fl u.te u.cl hs.te hs.cl
  have hA := energyLoop_spec th.eA th.vA three b w hw s.te s.ca s.fa u.te u.ca hs.te hs.ca
  have hBB := energyLoop_spec th.eB th.vB three b w hw s.te s.cb s.fb u.te u.cb hs.te hs.cb
  have ht : ∀ c, b.Has c → s.te ((b.grow three w.te).plane 0 c) = u.te c := fun c hc => hs.te c hc 0
  have hp : ∀ c, b.Has c → (fun p : Fin n => s.pf ((b.grow three w.pf).plane p c)) = u.pf c := fun c hc => funext fun p => hs.pf c hc p
  have hcl : ∀ c, b.Has c → (fun p : Fin m => s.cl ((b.grow three w.ci).plane p c)) = u.cl c := fun c hc => funext fun p => hs.cl c hc p
  have hca : ∀ c, b.Has c → (fun p : Fin m => s.ca ((b.grow three w.ci).plane p c)) = u.ca c := fun c hc => funext fun p => hs.ca c hc p
  have hcb : ∀ c, b.Has c → (fun p : Fin m => s.cb ((b.grow three w.ci).plane p c)) = u.cb c := fun c hc => funext fun p => hs.cb c hc p
  cases withB
  · have hadd := addLoop_spec force three b w hw ({ s with
        fl := energyLoop th.eL th.vL three b w s.te s.cl s.fl
        fa := energyLoop th.eA th.vA three b w s.te s.ca s.fa } : Mem)
    refine ⟨fun c hc p => ?_, hadd.2, fun c hc => ⟨hL.1 c hc, hA.1 c hc⟩⟩
    refine (hadd.1 c hc p).trans ?_
    congr 1
    rw [← hB rfl _ (here th u c).fb]
    have : ({ (readCell three b w ({ s with
        fl := energyLoop th.eL th.vL three b w s.te s.cl s.fl
        fa := energyLoop th.eA th.vA three b w s.te s.ca s.fa } : Mem) c : Local n m) with fb := (here th u c).fb } : Local n m) = here th u c := by
      simp only [readCell, ht c hc, hp c hc, hcl c hc, hca c hc, hcb c hc, hL.1 c hc, hA.1 c hc, here]
    rw [this]
  · have hadd := addLoop_spec force three b w hw ({ s with
        fl := energyLoop th.eL th.vL three b w s.te s.cl s.fl
        fa := energyLoop th.eA th.vA three b w s.te s.ca s.fa
        fb := energyLoop th.eB th.vB three b w s.te s.cb s.fb } : Mem)
    refine ⟨fun c hc p => ?_, hadd.2, fun c hc => ⟨hL.1 c hc, hA.1 c hc⟩⟩
    refine (hadd.1 c hc p).trans ?_
    congr 1
    have : (readCell three b w ({ s with
        fl := energyLoop th.eL th.vL three b w s.te s.cl s.fl
        fa := energyLoop th.eA th.vA three b w s.te s.ca s.fa
        fb := energyLoop th.eB th.vB three b w s.te s.cb s.fb } : Mem) c : Local n m) = here th u c := by
      simp only [readCell, ht c hc, hp c hc, hcl c hc, hca c hc, hcb c hc, hL.1 c hc, hA.1 c hc, hBB.1 c hc, here]
    rw [this]

/-- **C105.** The driving force of a cell depends on the data of that cell only: two patches, possibly with different boxes, holding the same
values and the same rate in a cell get the same rate there (in particular the result does not depend on how the grid is cut into patches). -/
theorem c105_local (th : Thermo m) (force : Local n m → Fin n → ℝ) (withB three : Bool) (b b' : Box) (w w' : Widths) (hw : Widths.Ok w)
    (hw' : Widths.Ok w') (s s' : Mem) (u u' : Fields n m) (hs : State three b w s u) (hs' : State three b' w' s' u')
    (hB : withB = false → ∀ (l : Local n m) (x : ℝ), force { l with fb := x } = force l)
    (c : Cell) (hc : b.Has c) (hc' : b'.Has c) (p : Fin n)
    (h : u.te c = u'.te c ∧ u.pf c = u'.pf c ∧ u.cl c = u'.cl c ∧ u.ca c = u'.ca c ∧ u.cb c = u'.cb c)
    (hr : s.rhs ((b.grow three w.rhs).plane p c) = s'.rhs ((b'.grow three w'.rhs).plane p c)) :
    (evaluate th force withB three b w s).rhs ((b.grow three w.rhs).plane p c)
      = (evaluate th force withB three b' w' s').rhs ((b'.grow three w'.rhs).plane p c) := by
  rw [(c105_rate th force withB three b w hw s u hs hB).1 c hc p, (c105_rate th force withB three b' w' hw' s' u' hs' hB).1 c hc' p, hr]
  congr 2
  obtain ⟨h1, h2, h3, h4, h5⟩ := h
  simp only [here, h1, h2, h3, h4, h5]

/-- **C105.** The two-phase expressions do not use the energy of the third phase. -/
theorem c105_two_phases (muOf : Local 1 1 → ℝ) (hmu : ∀ l x, muOf { l with fb := x } = muOf l) (mu2 : ℝ → (Fin 2 → ℝ) → Fin 2 → ℝ)
    (hp : ℝ → ℝ) (mu : ℝ → ℝ → ℝ) (N nA : ℕ) :
    (∀ (l : Local 1 1) x, forceBinary muOf hp { l with fb := x } = forceBinary muOf hp l) ∧
    (∀ (l : Local 1 2) x, forceTernary mu2 hp { l with fb := x } = forceTernary mu2 hp l) ∧
    (∀ (l : Local (N + 1) 1) x, forceMulti N nA false mu { l with fb := x } = forceMulti N nA false mu l) := by
  refine ⟨fun l x => ?_, fun l x => rfl, fun l x => rfl⟩
  funext p
  simp only [forceBinary, hmu]

/-! ## Plots -/

theorem zeroPatch_spec (three : Bool) (b : Box) (wr : ℤ) (hw : 0 ≤ wr) (r : ℤ → ℝ) :
    (∀ c, b.Has c → ∀ p : Fin n, zeroPatch n three b wr r ((b.grow three wr).plane p c) = 0) ∧
    (∀ q, (∀ c, b.Has c → ∀ p : Fin n, (b.grow three wr).plane p c ≠ q) → zeroPatch n three b wr r q = r q) :=
  planes_spec n b (b.grow three wr) (fun _ hc => Box.has_grow hw hc) (fun _ _ _ => (0 : ℝ)) r

/-- **C105.** `computeDrivingForce` of the base class records the force itself, whatever the plotted array held. -/
theorem c105_plot (force : Local n m → Fin n → ℝ) (three : Bool) (b : Box) (w : Widths) (hw : Widths.Ok w) (s : Mem) (c : Cell) (hc : b.Has c)
    (p : Fin n) :
    (computeDrivingForce force three b w s).rhs ((b.grow three w.rhs).plane p c) = force (readCell three b w s c) p := by
  refine ((addLoop_spec force three b w hw _).1 c hc p).trans ?_
  show zeroPatch n three b w.rhs s.rhs _ + _ = _
  rw [(zeroPatch_spec three b w.rhs hw.2.2.2.2 s.rhs).1 c hc p, zero_add]
  rfl

/-- **C105.** What is plotted, for the three strategies of binary alloys: the force for the quadratic one, the force without the factor of
interpolation for the other two; the strategy is afterwards as before. -/
theorem c105_plot_binary (o : Obj) (muL muA : ℝ → ℝ → ℝ) (three : Bool) (b : Box) (w : Widths) (hw : Widths.Ok w) (s : Mem) (c : Cell)
    (hc : b.Has c) :
    (o.record muL muA three b w s).1 = o ∧
    o.force muL muA (readCell three b w s c) 0
      = (if o.kind = .quadratic then 1 else o.hp ((readCell three b w s c : Local 1 1).pf 0))
        * (o.record muL muA three b w s).2.rhs ((b.grow three w.rhs).plane 0 c) := by
  obtain ⟨k, hp⟩ := o
  have h : ∀ hp', (computeDrivingForce (Obj.force ⟨k, hp'⟩ muL muA) three b w s).rhs ((b.grow three w.rhs).plane 0 c)
      = Obj.force ⟨k, hp'⟩ muL muA (readCell three b w s c) 0 := fun hp' => c105_plot (Obj.force ⟨k, hp'⟩ muL muA) three b w hw s c hc 0
  cases k
  · refine ⟨rfl, ?_⟩
    simp only [Obj.record, if_true, one_mul]
    exact (h hp).symm
  all_goals
    refine ⟨rfl, ?_⟩
    simp only [Obj.record]
    rw [h (fun _ => 1)]
    simp [Obj.force, forceBinary, Obj.mu]

/-- **C105, violated.** "The plotted driving force is the contribution to the rate": for the CALPHAD and dilute strategies it is so in a
cell exactly when the factor of interpolation is one or the chemical force vanishes.  Where the factor is zero, in the pure phases, the
plot shows a driving force that does not act. -/
theorem c105_violation_plot (o : Obj) (ho : o.kind ≠ .quadratic) (muL muA : ℝ → ℝ → ℝ) (three : Bool) (b : Box) (w : Widths)
    (hw : Widths.Ok w) (s : Mem) (c : Cell) (hc : b.Has c) :
    let l : Local 1 1 := readCell three b w s c
    ((o.record muL muA three b w s).2.rhs ((b.grow three w.rhs).plane 0 c) = o.force muL muA l 0 ↔
      o.hp (l.pf 0) = 1 ∨ (l.fl - l.fa) - muA l.te (l.ca 0) * (l.cl 0 - l.ca 0) = 0) := by
  intro l
  have h := (c105_plot_binary o muL muA three b w hw s c hc).2
  rw [if_neg ho] at h
  have hr : (o.record muL muA three b w s).2.rhs ((b.grow three w.rhs).plane 0 c)
      = (l.fl - l.fa) - muA l.te (l.ca 0) * (l.cl 0 - l.ca 0) := by
    have hh := c105_plot (Obj.force ⟨o.kind, fun _ => 1⟩ muL muA) three b w hw s c hc 0
    obtain ⟨k, hp⟩ := o
    cases k
    · exact absurd rfl ho
    all_goals
      refine hh.trans ?_
      simp only [Obj.force, forceBinary, Obj.mu, one_mul]
      rfl
  rw [h, hr]
  constructor
  · intro e
    by_cases hz : (l.fl - l.fa) - muA l.te (l.ca 0) * (l.cl 0 - l.ca 0) = 0
    · exact Or.inr hz
    · left
      have e' : o.hp (l.pf 0) * ((l.fl - l.fa) - muA l.te (l.ca 0) * (l.cl 0 - l.ca 0))
          = 1 * ((l.fl - l.fa) - muA l.te (l.ca 0) * (l.cl 0 - l.ca 0)) := by rw [one_mul]; exact e.symm
      exact mul_right_cancel₀ hz e'
  · rintro (e | e)
    · have e' : o.hp ((readCell three b w s c : Local 1 1).pf 0) = 1 := e
      rw [e', one_mul]
    · rw [e, mul_zero]

/-- **C105.** The rate is the recorded `phase_rhs` times the mobility, plus noise, motion of grains and frame. -/
theorem c105_recorded_rate (old r mob alpha noise motion frame : ℝ) :
    (finishRate true old r mob alpha noise motion frame).1
      = mob * (finishRate true old r mob alpha noise motion frame).2 + alpha * noise + motion + frame := by
  simp [finishRate]

/-- **C105, violated.** The plotted `phase_rhs` is not the rate of the phase: without noise, motion and frame the two agree exactly when the
mobility is one or the rate is zero. -/
theorem c105_violation_recorded (old r mob : ℝ) :
    (finishRate true old r mob 0 0 0 0).2 = (finishRate true old r mob 0 0 0 0).1 ↔ mob = 1 ∨ r = 0 := by
  simp only [finishRate, if_true, mul_zero, add_zero]
  constructor
  · intro h
    by_cases hr : r = 0
    · exact Or.inr hr
    · exact Or.inl (mul_right_cancel₀ hr (by rw [one_mul]; exact h.symm))
  · rintro (h | h)
    · rw [h, one_mul]
    · rw [h, mul_zero]

/-! ## Units of the second derivatives -/

/-- **C105.** Second derivatives for two species (`2 × 2` entries) are all converted when four entries are scaled. -/
theorem c105_units_partial (factor : ℝ) (lib : ℕ → ℝ) (i j : Fin 2) :
    secondDerivatives 4 factor lib (2 * i + j) = factor * lib (2 * i + j) := by
  unfold secondDerivatives
  rw [if_pos (by omega), mul_comm]

/-- **C105, violated.** With three entries scaled (quadratic ternary, three phases) the matrix is the converted one exactly when the entry
of the second species is zero or the factor one: otherwise its curvature stays in J/mol while the others are in internal units. -/
theorem c105_violation_units (factor : ℝ) (lib : ℕ → ℝ) :
    (∀ i j : Fin 2, secondDerivatives 3 factor lib (2 * i + j) = factor * lib (2 * i + j)) ↔ factor = 1 ∨ lib 3 = 0 := by
  constructor
  · intro h
    have h3 := h 1 1
    simp only [secondDerivatives, Fin.val_one] at h3
    rw [if_neg (by norm_num)] at h3
    norm_num at h3
    rcases eq_or_ne (lib 3) 0 with h0 | h0
    · exact Or.inr h0
    · left
      exact mul_right_cancel₀ h0 (by rw [one_mul]; exact h3.symm)
  · intro h i j
    unfold secondDerivatives
    by_cases hij : 2 * (i : ℕ) + (j : ℕ) < 3
    · rw [if_pos hij, mul_comm]
    · rw [if_neg hij]
      have e : 2 * (i : ℕ) + (j : ℕ) = 3 := by omega
      rw [e]
      rcases h with h | h
      · rw [h, one_mul]
      · rw [h, mul_zero]

/-! ## Non-trivial instances -/

/-- A patch of two cells with one ghost layer of temperature, in two dimensions. -/
example : (Box.Has ⟨0, 1, 0, 0, 0, 0⟩ (1, 0, 0)) ∧ Widths.Ok ⟨1, 1, 1, 0, 0⟩ := by
  constructor
  · simp [Box.Has]
  · simp [Widths.Ok]

/-- Arrays holding given fields exist. -/
example : ∃ (s : Mem) (u : Fields 1 1), State false ⟨0, 1, 0, 0, 0, 0⟩ ⟨0, 0, 0, 0, 0⟩ s u ∧ u.te (0, 0, 0) ≠ u.te (1, 0, 0) := by
  refine ⟨⟨fun q => q, fun _ => 0, fun _ => 0, fun _ => 0, fun _ => 0, fun _ => 0, fun _ => 0, fun _ => 0, fun _ => 0⟩,
    ⟨fun c => c.1, fun _ _ => 0, fun _ _ => 0, fun _ _ => 0, fun _ _ => 0⟩, ⟨?_, ?_, ?_, ?_, ?_⟩, by norm_num⟩
  · rintro ⟨x, y, z⟩ hc p
    simp only [Box.Has] at hc
    have hp : (p : ℕ) = 0 := by omega
    have hy : y = 0 := by omega
    have hz : z = 0 := by omega
    subst hy hz
    simp [Box.plane, Box.grow, Box.idx]
  all_goals
    intro c _ p
    rfl

example : Obj.kind ⟨.calphad, fun _ => 0⟩ ≠ .quadratic := by simp

end AMPE.DrivingForce.Props
