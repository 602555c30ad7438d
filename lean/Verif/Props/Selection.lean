import Verif.Model.Selection

/-! # One thermodynamic description per run (C87), constants that were read (C88) -/

namespace AMPE.Selection.Props

open AMPE.Selection

/-! ## C87

Driving forces, compositions of the phases, Kim's mobilities and Aziz' partition coefficients of one run refer to one
alloy: whenever two of these tasks use a free energy of the phases, it is the same one. -/

/-- The compositions of the phases are in equilibrium with respect to the free energies of the driving force. -/
def SameSplit (i : Input) (m : ConcModel) : Prop :=
  ∀ t t', energy i (some m) = some (.alloy t) → split i m = some (.equilibrium t') → t = t'

/-- Kim's mobility is computed with the free energies of the driving force. -/
def SameMobility (i : Input) (m : ConcModel) (r : Rhs) (d : Diff) : Prop :=
  ∀ t t' u, energy i (some m) = some (.alloy t) → mobility i (some (m, r, d)) = some (.kim t' u) → t = t'

/-- Aziz' equilibrium partition coefficient is computed with the free energies of the driving force. -/
def SameAziz (i : Input) (m : ConcModel) : Prop :=
  ∀ t, energy i (some m) = some (.alloy t) → t = aziz i m

theorem threePhases_false {i : Input} (h : phaseB i = false) : i.threePhases = false := by
  unfold phaseB at h
  cases hh : i.threePhases
  · rfl
  · rw [hh] at h; simp at h

theorem nparams_of {i : Input} (h : phaseB i = false) : nparams i = i.norderp := by
  unfold nparams
  rw [threePhases_false h]
  rfl

/-- Exactly when the compositions of the phases and the driving force share their free energies: always, except for
CALPHAD binaries with several order parameters in which there is no phase B or the file describes sublattices. -/
theorem c87_split_iff (i : Input) (m : ConcModel) (hk : phaseConc m i.phaseConcentrationModel = "kks")
    (hl : firstIs i.freeEnergyType 'l' = false) :
    SameSplit i m ↔
      ¬(m = .calphad ∧ i.ncomp = 1 ∧ 1 < i.norderp ∧ (phaseB i = false ∨ i.sublattice = true)) := by
  unfold SameSplit energy split
  rw [if_pos hk]
  cases m
  case calphad =>
    by_cases hn : i.ncomp = 1
    · cases hb : phaseB i <;> by_cases hm : 1 < i.norderp <;> cases hs : i.sublattice <;>
        simp [hl, baseEnergy, calphadEnergy, hn, hb, hm, hs, multiple, nparams_of]
    · simp [hl, baseEnergy, calphadEnergy, hn]
  all_goals simp [hl, baseEnergy]

/-- The same for settings in which the compositions of the phases follow from a partition coefficient or are equal:
no second free energy is involved. -/
theorem c87_split_other (i : Input) (m : ConcModel) (hk : phaseConc m i.phaseConcentrationModel ≠ "kks") :
    SameSplit i m := by
  intro t t' _ h
  unfold split at h
  rw [if_neg hk] at h
  split at h <;> simp at h

/-- Full claim for the compositions of the phases outside the exception. -/
theorem c87_split_partial (i : Input) (m : ConcModel) (hl : firstIs i.freeEnergyType 'l' = false)
    (h : ¬(m = .calphad ∧ i.ncomp = 1 ∧ 1 < i.norderp ∧ (phaseB i = false ∨ i.sublattice = true))) :
    SameSplit i m := by
  by_cases hk : phaseConc m i.phaseConcentrationModel = "kks"
  · exact (c87_split_iff i m hk hl).2 h
  · exact c87_split_other i m hk

/-- In a two-phase CALPHAD binary with several order parameters the driving force always uses the sublattice energies
and the compositions never do. -/
theorem c87_violation_two_phases (i : Input) (hk : phaseConc .calphad i.phaseConcentrationModel = "kks")
    (hl : firstIs i.freeEnergyType 'l' = false) (hn : i.ncomp = 1) (hm : 1 < i.norderp) (hb : phaseB i = false) :
    energy i (some .calphad) = some (.alloy .binary2Ph1Sl) ∧
      split i .calphad = some (.equilibrium .binary) := by
  unfold energy split
  rw [if_pos hk]
  simp [hl, baseEnergy, calphadEnergy, hn, hb, hm, multiple, nparams_of]

/-- In a three-phase CALPHAD binary with several order parameters and sublattices, the compositions of the phases use the
sublattice energies and the driving force does not. -/
theorem c87_violation_three_phases (i : Input) (hk : phaseConc .calphad i.phaseConcentrationModel = "kks")
    (hl : firstIs i.freeEnergyType 'l' = false) (hn : i.ncomp = 1) (hm : 1 < i.norderp) (hb : phaseB i = true)
    (hs : i.sublattice = true) :
    energy i (some .calphad) = some (.alloy .binaryThreePhase) ∧
      split i .calphad = some (.equilibrium .binary3Ph2Sl) := by
  unfold energy split
  rw [if_pos hk]
  simp [hl, baseEnergy, calphadEnergy, hn, hb, hm, hs, multiple]

/-- A free-energy type starting with `l` replaces the free energies of any alloy by those of a pure element, while
the compositions of the phases still come from the alloy. -/
theorem c87_violation_pure_element (i : Input) (m : ConcModel) (hl : firstIs i.freeEnergyType 'l' = true) :
    energy i (some m) = some .deltaTemperature ∧
      (m = .dilute → phaseConc m i.phaseConcentrationModel = "kks" → split i m = some (.equilibrium .dilute)) := by
  unfold energy
  refine ⟨by simp [hl], fun h hk => ?_⟩
  subst h
  unfold split
  rw [if_pos hk]
  simp

/-- Exactly when Kim's mobility refers to the free energies of the driving force. -/
theorem c87_mobility_iff (i : Input) (m : ConcModel) (r : Rhs) (d : Diff)
    (hk : mobilityScalar i = some false) (hd : d ≠ .ctd) (hl : firstIs i.freeEnergyType 'l' = false)
    (hn : 0 < i.ncomp) :
    SameMobility i m r d ↔
      (m = .calphad →
        (i.ncomp = 1 → if i.threePhases then i.norderp ≤ 1 ∧ i.sublattice = true
          else i.norderp ≤ 1 ∧ i.sublattice = false)) ∧ m ≠ .quadratic := by
  unfold SameMobility mobility energy
  rw [hk]
  cases m
  case calphad =>
    by_cases h1 : i.ncomp = 1
    · cases ht : i.threePhases
      · by_cases hm : 1 < i.norderp
        · have hm' : ¬ i.norderp ≤ 1 := by omega
          cases hb : phaseB i <;> cases hs : i.sublattice <;>
            simp [hl, hd, baseEnergy, calphadEnergy, h1, ht, hb, hm, hm', hs, multiple]
        · have hm' : i.norderp ≤ 1 := by omega
          have hb : phaseB i = false := by
            unfold phaseB norderpB
            rw [ht]
            simp only [Bool.false_or, decide_eq_false_iff_not, not_lt]
            generalize i.norderpA.getD _ = a
            split_ifs <;> omega
          cases hs : i.sublattice <;>
            simp [hl, hd, baseEnergy, calphadEnergy, h1, ht, hb, hm, hm', hs, multiple]
      · have hb : phaseB i = true := by unfold phaseB; rw [ht]; rfl
        by_cases hm : 1 < i.norderp
        · have hm' : ¬ i.norderp ≤ 1 := by omega
          cases hs : i.sublattice <;>
            simp [hl, hd, baseEnergy, calphadEnergy, h1, ht, hb, hm, hm', hs, multiple]
        · have hm' : i.norderp ≤ 1 := by omega
          cases hs : i.sublattice <;>
            simp [hl, hd, baseEnergy, calphadEnergy, h1, ht, hb, hm, hm', hs, multiple]
    · have h2 : 1 < i.ncomp := by omega
      simp [hl, hd, baseEnergy, calphadEnergy, h1, h2]
  case quadratic =>
    simp only [Option.bind_some, hl, hd, baseEnergy]
    simp
    split_ifs <;> simp
  case linear => simp [hl, baseEnergy]; split_ifs <;> simp
  case independent => simp [hl, baseEnergy, biasWell]
  case dilute =>
    simp [hl, hd, baseEnergy]
  case cahnHilliard => simp [hl, baseEnergy, biasWell]
  case wangSintering => simp [hl, baseEnergy, biasWell]

/-- Exactly when Aziz' partition coefficient refers to the free energies of the driving force. -/
theorem c87_aziz_iff (i : Input) (m : ConcModel) (hl : firstIs i.freeEnergyType 'l' = false) (hn : 0 < i.ncomp) :
    SameAziz i m ↔
      (m = .calphad → i.ncomp = 1 → i.norderp ≤ 1 ∧ i.threePhases = false ∧ i.sublattice = false) ∧
        m ≠ .quadratic := by
  unfold SameAziz aziz energy
  cases m
  case calphad =>
    by_cases h1 : i.ncomp = 1
    · by_cases hm : 1 < i.norderp
      · have hm' : ¬ i.norderp ≤ 1 := by omega
        cases hb : phaseB i <;> cases hs : i.sublattice <;>
            simp [hl, baseEnergy, calphadEnergy, h1, hb, hm, hm', hs, multiple]
      · have hm' : i.norderp ≤ 1 := by omega
        cases ht : i.threePhases
        · have hb : phaseB i = false := by
            unfold phaseB norderpB
            rw [ht]
            simp only [Bool.false_or, decide_eq_false_iff_not, not_lt]
            generalize i.norderpA.getD _ = a
            split_ifs <;> omega
          cases hs : i.sublattice <;>
            simp [hl, baseEnergy, calphadEnergy, h1, hb, hm, hm', hs, multiple]
        · have hb : phaseB i = true := by unfold phaseB; rw [ht]; rfl
          cases hs : i.sublattice <;>
            simp [hl, baseEnergy, calphadEnergy, h1, hb, hm, hm', hs, multiple]
    · have h2 : 1 < i.ncomp := by omega
      simp [hl, baseEnergy, calphadEnergy, h1, h2]
  case quadratic =>
    simp only [hl, baseEnergy]
    simp
    split_ifs <;> simp
  case linear => simp [hl, baseEnergy]; split_ifs <;> simp
  case independent => simp [hl, baseEnergy, biasWell]
  case dilute => simp [hl, baseEnergy]
  case cahnHilliard => simp [hl, baseEnergy, biasWell]
  case wangSintering => simp [hl, baseEnergy, biasWell]

/-- Concrete settings: a CALPHAD binary with two phases, EBS form, scalar mobility. -/
def base : Input where
  model := some "calphad"
  ncomp := 1
  rhsForm := some "ebs"
  diffusionType := some "temperature_dependent"
  phaseConcentrationModel := none
  partition := none
  norderp := 1
  norderpA := none
  threePhases := false
  mobilityType := none
  finiteMobility := false
  antitrapping := false
  heat := false
  steady := true
  latentGiven := false
  freeEnergyType := "none"
  biasAlpha := false
  gammaGiven := false
  slopeNonzero := false
  sublattice := false

/-- The exception is met by grains of a two-phase alloy: three order parameters, all solid ones of phase A. -/
example : let i := { base with norderp := 3 }
    read i = some (some (.calphad, .ebs, .td)) ∧ phaseConc .calphad i.phaseConcentrationModel = "kks" ∧
      firstIs i.freeEnergyType 'l' = false ∧ phaseB i = false ∧ ¬ SameSplit i .calphad := by
  intro i
  have hk : phaseConc .calphad i.phaseConcentrationModel = "kks" := by decide
  have hl : firstIs i.freeEnergyType 'l' = false := by decide
  have hb : phaseB i = false := by decide
  refine ⟨by decide, hk, hl, hb, ?_⟩
  rw [c87_split_iff i .calphad hk hl]
  push Not
  exact ⟨rfl, rfl, by decide, Or.inl hb⟩

/-- The single-order-parameter binary, and the ternary, satisfy the claim. -/
example : SameSplit base .calphad ∧ SameSplit { base with ncomp := 2, norderp := 3 } .calphad :=
  ⟨c87_split_partial _ _ (by decide) (by decide), c87_split_partial _ _ (by decide) (by decide)⟩

/-- Kim's mobility for the sublattice binary of a single order parameter refers to other energies. -/
example : ¬ SameMobility { base with mobilityType := some "kim", sublattice := true } .calphad .ebs .td := by
  rw [c87_mobility_iff _ _ _ _ (by decide) (by decide) (by decide) (by decide)]
  decide

/-! ## C88

Every constant that a run uses was read from the input (or has a documented default): none keeps the signalling NaN of
the constructor. -/

/-- Some constant that the run uses was never assigned. -/
def UsesUnset (i : Input) (c : Option (ConcModel × Rhs × Diff)) : Prop :=
  ∃ k, uses i c k = true ∧ assigned i c k = false

theorem wang_iff {i : Input} {m : ConcModel} {r : Rhs} {d : Diff} (h : read i = some (some (m, r, d))) :
    m = .wangSintering ↔ r = .wangSintering := by
  unfold read at h
  cases hm : i.model with
  | none => rw [hm] at h; simp at h
  | some s =>
    rw [hm] at h
    simp only [Option.map_eq_some_iff, Option.some.injEq, exists_eq_right, readConc, Option.bind_eq_some_iff,
      Prod.mk.injEq] at h
    obtain ⟨m', hm', r', hr', rfl, rfl, -⟩ := h
    unfold readRhs at hr'
    by_cases hw : m' = .wangSintering
    · simp [hw] at hr'
      simp [hw, ← hr']
    · simp only [hw, if_false] at hr'
      simp only [hw, false_iff]
      rintro rfl
      split_ifs at hr' <;> simp at hr'

/-- Constants of diffusion: exactly which forms of the equation use one that was not read. -/
theorem c88_diffusion_iff (i : Input) (m : ConcModel) (r : Rhs) (d : Diff)
    (h : read i = some (some (m, r, d))) :
    (∃ k, diffusionUses i m r d k = true ∧ assigned i (some (m, r, d)) k = false) ↔
      (r = .kks ∧ d ≠ .td) ∨ (r = .ebs ∧ (d = .mob ∨ d = .undefined)) ∨
        (r = .wangSintering ∧ (d = .mob ∨ d = .undefined)) := by
  have hw := wang_iff h
  constructor
  · rintro ⟨k, hu, ha⟩
    cases r <;> cases d <;> simp [diffusionUses, diffusion] at hu hw ⊢ <;> try tauto
    all_goals first
      | (cases k <;> simp [assigned] at hu ha <;> tauto)
      | (split_ifs at hu <;> cases k <;> simp [assigned] at hu ha <;> simp_all)
      | skip
  · rintro (⟨rfl, hd⟩ | ⟨rfl, hd⟩ | ⟨rfl, hd⟩)
    · exact ⟨.dLiquid, by simp [diffusionUses], by simp [assigned, hd]⟩
    · refine ⟨.dLiquid, ?_, ?_⟩
      · rcases hd with rfl | rfl <;> simp [diffusionUses, diffusion]
      · rcases hd with rfl | rfl <;> simp [assigned]
    · have hm := hw.2 rfl
      subst hm
      refine ⟨.dLiquid, ?_, ?_⟩
      · rcases hd with rfl | rfl <;> simp [diffusionUses, diffusion]
      · rcases hd with rfl | rfl <;> simp [assigned]

/-- Constants of Kim's mobilities: exactly when one was not read. -/
theorem c88_mobility_iff (i : Input) (m : ConcModel) (r : Rhs) (d : Diff) :
    (∃ k, mobilityUses (mobility i (some (m, r, d))) k = true ∧ assigned i (some (m, r, d)) k = false) ↔
      (d = .mob ∨ d = .undefined) ∧ ∃ t, mobility i (some (m, r, d)) = some (.kim t true) := by
  constructor
  · rintro ⟨k, hu, ha⟩
    have hex : ∃ t, mobility i (some (m, r, d)) = some (.kim t true) := by
      unfold mobilityUses at hu
      split at hu
      · next t hh => exact ⟨t, hh⟩
      · simp at hu
    refine ⟨?_, hex⟩
    obtain ⟨t, ht⟩ := hex
    rw [ht] at hu
    cases d
    · cases k <;> simp [mobilityUses, assigned] at hu ha
    · unfold mobility at ht
      simp only [Option.bind_eq_some_iff] at ht
      obtain ⟨s, -, hs⟩ := ht
      cases s <;> simp at hs
    · exact Or.inl rfl
    · exact Or.inr rfl
  · rintro ⟨hd, t, ht⟩
    refine ⟨.qLiquid, by rw [ht]; simp [mobilityUses], ?_⟩
    rcases hd with rfl | rfl <;> simp [assigned]

/-- Constants of the free energies of an alloy: the average composition is missing exactly in the linear model with a
bias well and a flat liquidus (the default slope), the latent heat when it was not given. -/
theorem c88_energy_alloy_iff (i : Input) (m : ConcModel) (r : Rhs) (d : Diff) :
    (∃ k, energyUses (some m) (energy i (some m)) k = true ∧ assigned i (some (m, r, d)) k = false) ↔
      (firstIs i.freeEnergyType 'l' = true ∧ i.latentGiven = false) ∨
        (firstIs i.freeEnergyType 'l' = false ∧ m = .linear ∧ i.biasAlpha = true ∧ i.slopeNonzero = false) := by
  constructor
  · rintro ⟨k, hu, ha⟩
    cases hl : firstIs i.freeEnergyType 'l'
    · right
      refine ⟨rfl, ?_⟩
      cases m <;> simp [energy, hl, baseEnergy, biasWell, energyUses] at hu
      cases hα : i.biasAlpha
      · simp [hα] at hu
      · cases hg : beckermannWell i <;> simp [hα, hg] at hu
        · rcases hu with rfl | rfl
          · simp [assigned] at ha
          · simp [assigned] at ha
            exact ⟨rfl, rfl, ha⟩
        · subst hu
          simp [assigned] at ha
          exact ⟨rfl, rfl, ha⟩
    · left
      simp [energy, hl, energyUses] at hu
      subst hu
      exact ⟨rfl, by simpa [assigned] using ha⟩
  · rintro (⟨hl, ha⟩ | ⟨hl, rfl, hα, hs⟩)
    · exact ⟨.latentHeat, by simp [energy, hl, energyUses], by simp [assigned, ha]⟩
    · refine ⟨.averageConcentration, ?_, by simp [assigned, hs]⟩
      cases hg : beckermannWell i <;> simp [energy, hl, baseEnergy, biasWell, hα, hg, energyUses]

/-- Constants of the free energies without composition. -/
theorem c88_energy_pure_iff (i : Input) :
    (∃ k, energyUses none (energy i none) k = true ∧ assigned i none k = false) ↔
      (firstIs i.freeEnergyType 'l' = true ∧ i.latentGiven = false) ∨
        (firstIs i.freeEnergyType 'l' = false ∧ i.heat = true ∧ i.biasAlpha = true ∧ i.gammaGiven = false) ∨
        (firstIs i.freeEnergyType 'l' = false ∧ i.heat = true ∧ i.biasAlpha = false ∧
          (i.latentGiven = false ∨ firstIs i.freeEnergyType 's' = false)) := by
  cases hl : firstIs i.freeEnergyType 'l' <;> cases hh : i.heat <;> cases hα : i.biasAlpha <;>
    cases hs : firstIs i.freeEnergyType 's' <;> cases hla : i.latentGiven <;> cases hg : i.gammaGiven <;>
    simp [energy, baseEnergy, biasWell, energyUses, assigned, hl, hh, hα, hs, hla, hg]

theorem usesUnset_some (i : Input) (m : ConcModel) (r : Rhs) (d : Diff) :
    UsesUnset i (some (m, r, d)) ↔
      (∃ k, diffusionUses i m r d k = true ∧ assigned i (some (m, r, d)) k = false) ∨
      (i.heat = true ∧ i.steady = false ∧ i.latentGiven = false) ∨
      (∃ k, energyUses (some m) (energy i (some m)) k = true ∧ assigned i (some (m, r, d)) k = false) ∨
      (∃ k, mobilityUses (mobility i (some (m, r, d))) k = true ∧ assigned i (some (m, r, d)) k = false) := by
  unfold UsesUnset uses
  constructor
  · rintro ⟨k, hu, ha⟩
    simp only [Option.map_some, Bool.or_eq_true, Bool.and_eq_true, decide_eq_true_eq, Bool.not_eq_true'] at hu
    rcases hu with ((h | h) | h) | h
    · exact Or.inl ⟨k, h, ha⟩
    · obtain ⟨⟨rfl, h1⟩, h2⟩ := h
      exact Or.inr (Or.inl ⟨h1, h2, by simpa [assigned] using ha⟩)
    · exact Or.inr (Or.inr (Or.inl ⟨k, h, ha⟩))
    · exact Or.inr (Or.inr (Or.inr ⟨k, h, ha⟩))
  · rintro (⟨k, h, ha⟩ | ⟨h1, h2, ha⟩ | ⟨k, h, ha⟩ | ⟨k, h, ha⟩)
    · exact ⟨k, by simp [h], ha⟩
    · exact ⟨.latentHeat, by simp [h1, h2], by simpa [assigned] using ha⟩
    · exact ⟨k, by simp [h], ha⟩
    · exact ⟨k, by simp [h], ha⟩

/-- The settings of an alloy for which some constant used was never read. -/
theorem c88_alloy_iff (i : Input) (m : ConcModel) (r : Rhs) (d : Diff) (h : read i = some (some (m, r, d))) :
    UsesUnset i (some (m, r, d)) ↔
      (r = .kks ∧ d = .ctd) ∨
      ((r = .kks ∨ r = .ebs ∨ r = .wangSintering) ∧ (d = .mob ∨ d = .undefined)) ∨
      ((d = .mob ∨ d = .undefined) ∧ ∃ t, mobility i (some (m, r, d)) = some (.kim t true)) ∨
      (i.latentGiven = false ∧ (firstIs i.freeEnergyType 'l' = true ∨ (i.heat = true ∧ i.steady = false))) ∨
      (firstIs i.freeEnergyType 'l' = false ∧ m = .linear ∧ i.biasAlpha = true ∧ i.slopeNonzero = false) := by
  rw [usesUnset_some, c88_diffusion_iff i m r d h, c88_mobility_iff, c88_energy_alloy_iff]
  generalize (∃ t, mobility i (some (m, r, d)) = some (Mobility.kim t true)) = P
  cases r <;> cases d <;> simp <;> tauto

/-- With the default type of diffusion no constant of diffusion is missing, in every form of the equation and with
every mobility that can be built. -/
theorem c88_defaults_partial (i : Input) (m : ConcModel) (r : Rhs) (d : Diff)
    (h : read i = some (some (m, r, d))) (hdef : i.diffusionType = none) (hlat : i.latentGiven = true)
    (hlin : m = .linear → i.biasAlpha = true → i.slopeNonzero = true) :
    ¬ UsesUnset i (some (m, r, d)) := by
  have hd : d = readDiff r none := by
    unfold read at h
    cases hm : i.model with
    | none => rw [hm] at h; simp at h
    | some s =>
      rw [hm] at h
      simp only [Option.map_eq_some_iff, Option.some.injEq, exists_eq_right, readConc, Option.bind_eq_some_iff,
        Prod.mk.injEq] at h
      obtain ⟨m', -, r', -, -, rfl, h3⟩ := h
      rw [← h3, hdef]
  rw [c88_alloy_iff i m r d h]
  subst hd
  cases r <;> simp [readDiff, hlat] <;> intro _ h1 h2 <;> exact hlin h1 h2

/-- A misspelt type of diffusion is not reported: the run starts and uses the unread coefficient of the liquid. -/
theorem c88_violation_misspelt (i : Input) (m : ConcModel) (r : Rhs) (s : String)
    (hr : r = .kks ∨ r = .ebs ∨ r = .wangSintering) (hm : i.model.bind readModel = some m)
    (hrd : readRhs m i.rhsForm = some r) (hs : i.diffusionType = some s)
    (h1 : s ≠ "composition_dependent") (h2 : s ≠ "temperature_dependent") (hmob : mobilityScalar i = some true) :
    ∃ d, starts i (some (m, r, d)) ∧ uses i (some (m, r, d)) .dLiquid = true ∧
      assigned i (some (m, r, d)) .dLiquid = false := by
  set d := readDiff r (some s) with hd
  have hdd : d = .mob ∨ d = .undefined := by
    rw [hd]
    simp only [readDiff, Option.getD_some, h1, h2, if_false]
    by_cases h : s = "mobility" <;> simp [h]
  have hread : read i = some (some (m, r, d)) := by
    unfold read
    cases hmod : i.model with
    | none => rw [hmod] at hm; simp at hm
    | some t =>
      rw [hmod] at hm
      simp only [Option.bind_some] at hm
      simp [readConc, hm, hrd, hs, ← hd]
  have hw := wang_iff hread
  refine ⟨d, ⟨hread, ?_, ?_⟩, ?_, ?_⟩
  · simp [mobility, hmob]
  · intro m' r' d' he
    simp only [Option.some.injEq, Prod.mk.injEq] at he
    obtain ⟨rfl, rfl, -⟩ := he
    rcases hr with rfl | rfl | rfl
    · simp [rhsExists]
    · simp [rhsExists]
    · simp [rhsExists, hw.2 rfl]
  · unfold uses
    simp only [Bool.or_eq_true]
    left; left; left
    rcases hr with rfl | rfl | rfl
    · simp [diffusionUses]
    · rcases hdd with e | e <;> simp [diffusionUses, diffusion, e]
    · have := hw.2 rfl
      subst this
      rcases hdd with e | e <;> simp [diffusionUses, diffusion, e]
  · unfold assigned
    rcases hr with rfl | rfl | rfl <;> rcases hdd with e | e <;> simp [e]

/-- A flat liquidus, the default, leaves the melting temperature of the linear model undefined. -/
theorem c88_violation_flat_liquidus (i : Input) (r : Rhs) (d : Diff) (hl : firstIs i.freeEnergyType 'l' = false)
    (hα : i.biasAlpha = true) (hs : i.slopeNonzero = false) :
    uses i (some (.linear, r, d)) .averageConcentration = true ∧
      assigned i (some (.linear, r, d)) .averageConcentration = false := by
  refine ⟨?_, by simp [assigned, hs]⟩
  unfold uses
  simp only [Bool.or_eq_true]
  left; right
  cases hg : beckermannWell i <;> simp [energy, hl, baseEnergy, biasWell, hα, hg, energyUses]

/-- The form `spinodal` of the equation is accepted when the input is read, and never runs. -/
theorem c88_violation_spinodal (i : Input) (m : ConcModel) (hm : m ≠ .wangSintering) :
    readRhs m (some "spinodal") = some .spinodal ∧ ∀ d, ¬ starts i (some (m, .spinodal, d)) := by
  refine ⟨by simp [readRhs, hm], fun d h => ?_⟩
  have := h.2.2 m .spinodal d rfl
  simp [rhsExists, hm] at this

/-- The object that splits the composition between the phases exists, for the models that call it, except for CALPHAD
models with other than one or two composition fields and for equilibrium compositions asked of a model without free
energies of the phases. -/
theorem c88_split_exists_iff (i : Input) (m : ConcModel) (hm : needsPhaseConc m = true) :
    (split i m).isSome ↔
      ¬(phaseConc m i.phaseConcentrationModel = "kks" ∧
        ((m = .calphad ∧ i.ncomp ≠ 1 ∧ i.ncomp ≠ 2) ∨ m = .linear ∨ m = .independent)) := by
  unfold split
  by_cases hk : phaseConc m i.phaseConcentrationModel = "kks"
  · rw [if_pos hk]
    cases m <;> simp [needsPhaseConc] at hm ⊢ <;> simp [hk]
    by_cases h1 : i.ncomp = 1 <;> by_cases h2 : i.ncomp = 2 <;> simp [h1, h2]
  · rw [if_neg hk]
    simp only [hk, false_and, not_false_iff, iff_true]
    split_ifs <;> rfl

/-- The settings of the example run use only constants that were read. -/
example : read base = some (some (.calphad, .ebs, .td)) ∧ starts base (some (.calphad, .ebs, .td)) ∧
    ¬ UsesUnset base (some (.calphad, .ebs, .td)) := by
  have h : read base = some (some (.calphad, .ebs, .td)) := by decide
  refine ⟨h, ⟨h, by decide, ?_⟩, ?_⟩
  · intro m r d he
    simp only [Option.some.injEq, Prod.mk.injEq] at he
    obtain ⟨rfl, rfl, -⟩ := he
    decide
  · rw [c88_alloy_iff _ _ _ _ h]
    have : firstIs base.freeEnergyType 'l' = false := by decide
    simp [this, base]
    decide

/-- A misspelt type of diffusion in the same settings. -/
example : ∃ d, starts { base with diffusionType := some "temperature-dependent" } (some (.calphad, .ebs, d)) ∧
    UsesUnset { base with diffusionType := some "temperature-dependent" } (some (.calphad, .ebs, d)) := by
  obtain ⟨d, h1, h2, h3⟩ := c88_violation_misspelt { base with diffusionType := some "temperature-dependent" }
    .calphad .ebs "temperature-dependent" (by decide) (by decide) (by decide) rfl (by decide) (by decide) (by decide)
  exact ⟨d, h1, _, h2, h3⟩

end AMPE.Selection.Props
