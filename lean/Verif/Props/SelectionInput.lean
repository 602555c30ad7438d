import Verif.Props.Selection

/-! # C88: which settings start a run, and which constants they use

The statements list the texts and constants themselves. -/

namespace AMPE.Selection.Props

open AMPE.Selection

/-- Texts accepted for the form of the composition equation. -/
def Form (s : String) (r : Rhs) : Prop :=
  (r = .kks ∧ s = "kks") ∨ (r = .ebs ∧ s = "ebs") ∨ (r = .cahnHilliard ∧ s = "cahn_hilliard") ∨ (r = .spinodal ∧ s = "spinodal") ∨
    (r = .beckermann ∧ (s.toList.head? = some 'u' ∨ s.toList.head? = some 'B' ∨ s.toList.head? = some 'b'))

/-- **C88**: exactly the accepted texts, outside the sintering model (which ignores the text). -/
theorem c88_form_iff (m : ConcModel) (hm : m ≠ .wangSintering) (o : Option String) (r : Rhs) :
    readRhs m o = some r ↔ Form (o.getD "kks") r := by
  unfold readRhs Form
  simp only [if_neg hm]
  generalize o.getD "kks" = s
  by_cases h1 : s = "kks"
  · subst h1; cases r <;> simp
  by_cases h2 : s = "ebs"
  · subst h2; cases r <;> simp
  by_cases h3 : s = "cahn_hilliard"
  · subst h3; cases r <;> simp
  by_cases h4 : s = "spinodal"
  · subst h4; cases r <;> simp
  simp only [h1, h2, h3, h4, if_false, and_false, false_or, firstIs, Bool.or_eq_true, beq_iff_eq]
  by_cases h5 : (s.toList.head? = some 'u' ∨ s.toList.head? = some 'B') ∨ s.toList.head? = some 'b'
  · rw [if_pos h5, Option.some.injEq]
    exact ⟨fun h => ⟨h.symm, or_assoc.1 h5⟩, fun h => h.1.symm⟩
  · rw [if_neg h5]
    exact ⟨fun h => by simp at h, fun h => absurd (or_assoc.2 h.2) h5⟩

/-- **C88**: exactly the accepted texts for the type of mobility; leaving the block out is `scalar`. -/
theorem c88_mobility_type (i : Input) : (mobilityScalar i = some true ↔ i.mobilityType = none ∨ i.mobilityType = some "scalar") ∧
    (mobilityScalar i = some false ↔ i.mobilityType = some "Kim" ∨ i.mobilityType = some "kim") := by
  unfold mobilityScalar
  cases h : i.mobilityType with
  | none => simp
  | some s =>
    by_cases h1 : s = "scalar"
    · subst h1; simp
    · by_cases h2 : s = "Kim" ∨ s = "kim"
      · simp [h1, h2]
      · simp [h1, h2]

/-- **C88**: Kim's mobility takes the diffusion coefficient of the liquid exactly when the interface mobility is not a finite number or
the anti-trapping correction is on, except for a CALPHAD binary of three phases. -/
theorem c88_kim_iff (i : Input) (m : ConcModel) (r : Rhs) (d : Diff) :
    (∃ t, mobility i (some (m, r, d)) = some (.kim t true)) ↔
      (i.mobilityType = some "Kim" ∨ i.mobilityType = some "kim") ∧ d ≠ .ctd ∧ (i.finiteMobility = false ∨ i.antitrapping = true) ∧
        ¬((m = .calphad ∨ m = .cahnHilliard) ∧ i.ncomp ≤ 1 ∧ i.threePhases = true) := by
  rw [← (c88_mobility_type i).2]
  unfold mobility
  rcases h : mobilityScalar i with _ | _ | _
  · simp
  · by_cases hd : d = .ctd
    · simp [hd]
    · by_cases hm : m = .calphad ∨ m = .cahnHilliard
      · by_cases hn : 1 < i.ncomp
        · have : ¬ i.ncomp ≤ 1 := by omega
          simp [hd, hm, hn, this]
        · have : i.ncomp ≤ 1 := by omega
          cases ht : i.threePhases <;> simp [hd, hm, hn, this]
      · simp [hd, hm]
  · simp

/-- Constants of diffusion: in a phase, or in the interface between two phases or two grains. -/
inductive Place
  | liquid | solidA | solidB | la | aa | lb | ab | bb

/-- Where a constant belongs. -/
def place : Const → Option Place
  | .dLiquid | .qLiquid => some .liquid
  | .dSolidA | .qSolidA => some .solidA
  | .dSolidB | .qSolidB => some .solidB
  | .dLA | .qLA => some .la
  | .dAA | .qAA => some .aa
  | .dLB | .qLB => some .lb
  | .dAB | .qAB => some .ab
  | .dBB | .qBB => some .bb
  | _ => none

/-- Phase B is involved. -/
def Place.B : Place → Prop
  | .solidB | .lb | .ab | .bb => True
  | _ => False

/-- An interface. -/
def Place.interface : Place → Prop
  | .la | .aa | .lb | .ab | .bb => True
  | _ => False

/-- **C88**: with temperature dependent diffusion the reader assigns exactly the constants of the phases that exist. -/
theorem c88_assigned_iff (i : Input) (m : ConcModel) (r : Rhs) (k : Const) (p : Place) (hk : place k = some p) :
    assigned i (some (m, r, .td)) k = true ↔ (p.B → phaseB i = true) := by
  cases k <;> simp only [place, Option.some.injEq, reduceCtorEq] at hk <;> subst hk <;> simp [assigned, Place.B]

/-- **C88**: and the form `ebs` uses exactly those of the phases that exist, with the interfaces when there are several order
parameters or three phases, for the models with compositions of the phases. -/
theorem c88_used_iff (i : Input) (m : ConcModel) (hm : m ≠ .cahnHilliard ∧ m ≠ .wangSintering) (k : Const) :
    diffusionUses i m .ebs .td k = true ↔
      ∃ p, place k = some p ∧ (p.B → phaseB i = true) ∧ (p.interface → phaseB i = true ∨ 1 < nparams i) := by
  have hn : needsPhaseConc m = true := by cases m <;> simp_all [needsPhaseConc]
  have hd : diffusion m .ebs .td = some .temperature := by simp [diffusion]
  simp only [diffusionUses, hd, hn, Bool.and_true]
  cases hb : phaseB i
  · by_cases h1 : 1 < nparams i
    · cases k <;> simp [h1, place, Place.B, Place.interface]
    · cases k <;> simp [h1, place, Place.B, Place.interface]
  · cases k <;> simp [place, Place.B, Place.interface]

/-- **C88**: the form `kks` uses those of the liquid and of phase A, Beckermann's form only the prefactors. -/
theorem c88_used_gradient (i : Input) (m : ConcModel) (d : Diff) (k : Const) :
    (diffusionUses i m .kks d k = true ↔ k = .dLiquid ∨ k = .dSolidA ∨ k = .qLiquid ∨ k = .qSolidA) ∧
      (diffusionUses i m .beckermann d k = true ↔ k = .dLiquid ∨ k = .dSolidA) := by
  cases k <;> simp [diffusionUses]

/-- **C88**: a model of which the composition equation exists for each accepted form except `spinodal`. -/
theorem c88_form_runs (m : ConcModel) (hm : m ≠ .wangSintering) (o : Option String) (r : Rhs) (h : readRhs m o = some r) :
    rhsExists m r = true ↔ o ≠ some "spinodal" := by
  have hf := (c88_form_iff m hm o r).1 h
  have h0 : "spinodal".toList.head? = some 's' := by decide
  rcases hf with ⟨rfl, e⟩ | ⟨rfl, e⟩ | ⟨rfl, e⟩ | ⟨rfl, e⟩ | ⟨rfl, e⟩
  · refine ⟨fun _ ho => ?_, fun _ => by simp [rhsExists]⟩
    subst ho; simp at e
  · refine ⟨fun _ ho => ?_, fun _ => by simp [rhsExists]⟩
    subst ho; simp at e
  · refine ⟨fun _ ho => ?_, fun _ => by simp [rhsExists]⟩
    subst ho; simp at e
  · refine ⟨fun hr => by simp [rhsExists, hm] at hr, fun ho => ?_⟩
    cases o with
    | none => simp at e
    | some s => simp at e; exact absurd (by rw [e]) ho
  · refine ⟨fun _ ho => ?_, fun _ => by simp [rhsExists]⟩
    subst ho
    rw [Option.getD_some, h0] at e
    simp at e

example : readRhs .calphad (some "uphill") = some .beckermann ∧ readRhs .calphad (some "KKS") = none :=
  ⟨(c88_form_iff _ (by decide) _ _).2 (Or.inr (Or.inr (Or.inr (Or.inr ⟨rfl, Or.inl (by decide)⟩)))), by decide⟩

end AMPE.Selection.Props
