import Verif.Model.TempInput
import Mathlib.Tactic.NormNum
import Mathlib.Tactic.Ring
import Mathlib.Tactic.FieldSimp

/-!
# C167: choice of the temperature model

Specification: each documented type gives its model, whatever the case of its first letter; a steady equation runs with the source the input
describes, in the units of the program, and an incomplete description is refused.
-/

namespace AMPE.TempInput.Props

open AMPE.TempInput

/-- Spec: the documented types, with their models. -/
def table (eq : Option (List Char)) : List (List Char × Kind) :=
  [("scalar".toList, .scalar), ("Scalar".toList, .scalar), ("gaussian".toList, .gaussian), ("Gaussian".toList, .gaussian),
   ("frozen".toList, .gradient), ("Frozen".toList, .gradient), ("constant".toList, .constant), ("Constant".toList, .constant),
   ("heat".toList, .heat (eq.getD "steady".toList == "steady".toList)), ("Heat".toList, .heat (eq.getD "steady".toList == "steady".toList))]

/-- Every text gives the model of the table, and a text outside the table is refused.  Partial: `file`, one of the types in the list of valid
ones, is refused too (`c167_violation_file`). -/
theorem c167_type_partial (i : In) (t : List Char) (h : i.block = some t) (k : Kind) : i.kind = some k ↔ (t, k) ∈ table i.eqType := by
  have ht : i.typ = small t := by unfold In.typ; rw [h]; rfl
  have key : ∀ (c : Char) (cs : List Char), small t = c :: cs →
      (t = c :: cs ∨ t = (if c = 's' then 'S' else if c = 'f' then 'F' else if c = 'g' then 'G' else if c = 'c' then 'C' else if c = 'h' then 'H' else c) :: cs) := by
    intro c cs hs
    rcases t with _ | ⟨d, ds⟩
    · simp [small] at hs
    · simp only [small, List.cons.injEq] at hs ⊢
      obtain ⟨h1, rfl⟩ := hs
      subst h1
      by_cases a1 : d = 'S'; · subst a1; right; simp
      by_cases a2 : d = 'F'; · subst a2; right; simp
      by_cases a3 : d = 'G'; · subst a3; right; simp
      by_cases a4 : d = 'C'; · subst a4; right; simp
      by_cases a5 : d = 'H'; · subst a5; right; simp
      left; simp [a1, a2, a3, a4, a5]
  constructor
  · intro hk
    unfold In.kind at hk
    rw [ht] at hk
    split_ifs at hk with h0 h1 h2 h3 h4 h5
    · have e0 : small t = ['s', 'c', 'a', 'l', 'a', 'r'] := by simpa using h1
      cases hk; rcases key _ _ e0 with e | e <;> rw [e] <;> simp [table]
    · have e0 : small t = ['g', 'a', 'u', 's', 's', 'i', 'a', 'n'] := by simpa using h2
      cases hk; rcases key _ _ e0 with e | e <;> rw [e] <;> simp [table]
    · have e0 : small t = ['f', 'r', 'o', 'z', 'e', 'n'] := by simpa using h3
      cases hk; rcases key _ _ e0 with e | e <;> rw [e] <;> simp [table]
    · have e0 : small t = ['h', 'e', 'a', 't'] := by simpa using h4
      cases hk; rcases key _ _ e0 with e | e <;> rw [e] <;> simp [table]
    · have e0 : small t = ['c', 'o', 'n', 's', 't', 'a', 'n', 't'] := by simpa using h5
      cases hk; rcases key _ _ e0 with e | e <;> rw [e] <;> simp [table]
  · intro hm
    unfold table at hm
    simp only [List.mem_cons, Prod.mk.injEq, List.not_mem_nil, or_false] at hm
    unfold In.kind
    rw [ht]
    rcases hm with ⟨rfl, rfl⟩ | ⟨rfl, rfl⟩ | ⟨rfl, rfl⟩ | ⟨rfl, rfl⟩ | ⟨rfl, rfl⟩ | ⟨rfl, rfl⟩ | ⟨rfl, rfl⟩ | ⟨rfl, rfl⟩ | ⟨rfl, rfl⟩ | ⟨rfl, rfl⟩ <;>
      simp [small, valid]

/-- Without any entry the temperature is uniform. -/
theorem c167_default (i : In) (h : i.block = none) (h' : i.old = none) (checks : Bool) : i.create checks = .uses .uniform := by
  have : i.kind = some .scalar := by
    unfold In.kind In.typ; rw [h, h']; simp [small, valid]
  unfold In.create; rw [this]

/-- **Violation**: the type `file` passes the test of valid types and stops the program all the same, with the message that no type was given. -/
theorem c167_violation_file (i : In) (h : i.block = some "file".toList ∨ i.block = some "File".toList) (checks : Bool) :
    valid i.typ = true ∧ i.create checks = .stops := by
  have ht : i.typ = "file".toList := by
    unfold In.typ; rcases h with h | h <;> rw [h] <;> simp [small]
  have hk : i.kind = none := by unfold In.kind; rw [ht]; simp
  refine ⟨by rw [ht]; simp [valid], ?_⟩
  unfold In.create; rw [hk]

/-- The steady equation is the default, and is solved only for the exact text. -/
theorem c167_method_iff (i : In) (h : i.block = some "heat".toList) : i.kind = some (.heat true) ↔ i.eqType = none ∨ i.eqType = some "steady".toList := by
  rw [c167_type_partial i _ h]
  rcases i.eqType with _ | e <;> simp [table]

/-- **Violation**: any other text (`Steady`, for one) silently gives the equation in time, with a temperature that no source heats. -/
theorem c167_violation_method (i : In) (h : i.block = some "heat".toList) (e : List Char) (he : i.eqType = some e) (hs : e ≠ "steady".toList)
    {v : ℝ} (hv : i.vol = some v) (h0 : 0 < v) (h1 : v < 1e15) (checks : Bool) : i.create checks = .uses .constant := by
  have hk : i.kind = some (.heat false) := by
    rw [c167_type_partial i _ h, he]
    have : (e == "steady".toList) = false := by simpa using hs
    simp [table]
    simpa using hs
  have hok : i.volOk = true := by unfold In.volOk; rw [hv]; simp [h0, h1]
  unfold In.create; rw [hk, hok]; simp

/-- Spec: energy per volume in pJ/um^3 of `s` J/mol with `v` m^3/mol. -/
noncomputable def perVolume (s v : ℝ) : ℝ := s / v * (1e12 / (1e6) ^ 3)

/-- With assertions: a steady equation runs exactly with boundary conditions and either a source by composition (composition present) or the
Gaussian one with its block; the other inputs stop, or end in undefined behaviour as given by the next theorems. -/
theorem c167_steady_iff (i : In) (hk : i.kind = some (.heat true)) {v : ℝ} (hv : i.vol = some v) (h0 : 0 < v) (h1 : v < 1e15) (s : Strategy) :
    i.create true = .uses s ↔ i.bc = true ∧
      ((i.sourceType = some "composition".toList ∧ i.conc = true ∧ ∃ a b l, i.source = a :: b :: l ∧
          s = .sourceComposition (some (perVolume a v)) (some (perVolume b v)))
        ∨ ((i.sourceType = none ∨ i.sourceType = some "gaussian".toList) ∧ i.heatSource = true ∧ i.solver = true ∧ s = .sourceGaussian)) := by
  have hok : i.volOk = true := by unfold In.volOk; rw [hv]; simp [h0, h1]
  have hs : ∀ x, scaled i.vol x = some (perVolume x v) := by
    intro x; unfold scaled perVolume; rw [hv]; simp only [Option.map_some, Option.some.injEq]; field_simp; ring
  unfold In.create
  rw [hk, hok]
  simp only [Bool.not_true, Bool.and_false, Bool.false_eq_true, if_false, if_true]
  unfold In.steady In.badSource In.byComposition
  rcases hst : i.sourceType with _ | t
  · cases i.bc <;> cases i.heatSource <;> cases i.solver <;> simp <;> exact eq_comm
  · by_cases hc : t = "composition".toList
    · subst hc
      rcases hsrc : i.source with _ | ⟨a, _ | ⟨b, l⟩⟩
      · cases i.bc <;> cases i.conc <;> simp
      · cases i.bc <;> cases i.conc <;> simp [firstTwo]
      · cases i.bc <;> cases i.conc <;> simp [firstTwo, hs] <;> exact eq_comm
    · by_cases hg : t = "gaussian".toList
      · subst hg
        cases i.bc <;> cases i.heatSource <;> cases i.solver <;> simp <;> exact eq_comm
      · have e1 : (t == "composition".toList) = false := by simpa using hc
        have e2 : (t != "gaussian".toList) = true := by simpa using hg
        simp only [hc, e2, Bool.true_and, if_true, if_false, Option.some.injEq, hg, reduceCtorEq, false_and, false_or, or_self, and_false]

/-- **Violation**: a source by composition with a single entry is read beyond its end; entries after the second have no effect. -/
theorem c167_violation_source (i : In) (hk : i.kind = some (.heat true)) (hc : i.sourceType = some "composition".toList) (hcc : i.conc = true)
    (hb : i.bc = true) (checks : Bool) (hvol : i.volOk = true) :
    (∀ a, i.source = [a] → i.create checks = .undefined)
      ∧ ∀ a b l, i.source = a :: b :: l → i.create checks = In.create checks { i with source := [a, b] } := by
  have hk' : ∀ l, In.kind { i with source := l } = some (.heat true) := fun l => hk
  have hv' : ∀ l, In.volOk { i with source := l } = true := fun l => hvol
  constructor
  · intro a ha
    unfold In.create In.steady In.badSource In.byComposition
    rw [hk, hvol, hc, hb, hcc, ha]
    simp [firstTwo]
  · intro a b l ha
    unfold In.create
    rw [hk, hk', hvol, hv']
    unfold In.steady In.badSource In.byComposition
    simp [hc, hb, hcc, ha, firstTwo]

/-- **Violation**: a Gaussian source without the (optional) block of the solver dereferences a null pointer, with assertions or without. -/
theorem c167_violation_solver (i : In) (hk : i.kind = some (.heat true)) (ht : i.sourceType = none ∨ i.sourceType = some "gaussian".toList)
    (hh : i.heatSource = true) (hs : i.solver = false) (hb : i.bc = true) (hvol : i.volOk = true) (checks : Bool) : i.create checks = .undefined := by
  unfold In.create In.steady In.badSource In.byComposition
  rw [hk, hvol, hh, hs, hb]
  rcases ht with h | h <;> rw [h] <;> simp

/-- **Violation**: without assertions an unknown source type is taken as the Gaussian source, a source by composition without a composition reads a
field that is not there, and without molar volume the source is not a number. -/
theorem c167_violation_unchecked (i : In) (hk : i.kind = some (.heat true)) :
    (∀ t, i.sourceType = some t → t ≠ "composition".toList → i.heatSource = true → i.solver = true → i.create false = .uses .sourceGaussian)
      ∧ (i.sourceType = some "composition".toList → i.source ≠ [] → i.conc = false → i.create false = .undefined)
      ∧ (∀ a b l, i.sourceType = some "composition".toList → i.source = a :: b :: l → i.conc = true → i.vol = none →
          i.create false = .uses (.sourceComposition none none)) := by
  refine ⟨?_, ?_, ?_⟩
  · intro t ht hn hh hs
    unfold In.create In.steady In.badSource In.byComposition
    rw [hk, ht, hh, hs]
    have : (t == "composition".toList) = false := by simpa using hn
    simp only [Bool.false_and, Bool.false_eq_true, if_false, if_true, hn, Option.getD_some, this, Bool.not_true]
  · intro ht hs hc
    unfold In.create In.steady In.badSource In.byComposition
    rw [hk, ht, hc]
    simp [hs]
  · intro a b l ht hs hc hv
    unfold In.create In.steady In.badSource In.byComposition
    rw [hk, ht, hc, hs, hv]
    simp [firstTwo, scaled]

/-- With assertions no heat equation, steady or not, runs without a positive molar volume. -/
theorem c167_volume (i : In) (b : Bool) (hk : i.kind = some (.heat b)) (s : Strategy) (h : i.create true = .uses s) :
    ∃ v, i.vol = some v ∧ 0 < v ∧ v < 1e15 := by
  unfold In.create at h
  rw [hk] at h
  have hv : i.volOk = true := by
    by_contra hn
    rw [Bool.not_eq_true] at hn
    simp [hn] at h
  unfold In.volOk at hv
  rcases hvol : i.vol with _ | v
  · rw [hvol] at hv; simp at hv
  · rw [hvol] at hv
    exact ⟨v, rfl, of_decide_eq_true hv⟩

/-- The uniform temperature is the one of the entry `temperature`.  Partial: as long as the two deprecated entries are not there
(`c167_violation_names`). -/
theorem c167_value_partial (v : Value) (t : ℝ) (h : v.temperature = some t) (h0 : v.temperature0 = none) (h1 : v.tParameter = none) : v.read = some t := by
  simp [Value.read, h, h0, h1]

/-- The start stops exactly if none of the four entries is there. -/
theorem c167_value_iff (v : Value) : v.read = none ↔ v.temperature0 = none ∧ v.tParameter = none ∧ v.temperature = none ∧ v.initial = none := by
  rcases v with ⟨_ | a, _ | b, _ | c, _ | d⟩ <;> simp [Value.read]

/-- **Violation**: a deprecated entry overrides the current one: `temperature` counts, next to a deprecated entry, only if the two agree. -/
theorem c167_violation_names (v : Value) (t : ℝ) (h : v.temperature = some t) :
    v.read = some t ↔ (v.temperature0 = some t ∨ v.temperature0 = none ∧ (v.tParameter = some t ∨ v.tParameter = none)) := by
  rcases v with ⟨_ | a, _ | b, c, d⟩ <;> simp_all [Value.read]

/-- `temperature = 1500` next to an old `T_parameter = 1000`: 1000. -/
example : Value.read { tParameter := some 1000, temperature := some 1500 } ≠ some 1500 := by
  rw [Ne, c167_violation_names _ 1500 rfl]
  norm_num
  simp

/-- A steady equation heated by composition, with 1e-5 m^3/mol: 200 J/mol become 20 pJ/um^3. -/
example : In.create true { block := some "Heat".toList, sourceType := some "composition".toList, source := [200, 0], bc := true, conc := true, vol := some 1e-5 }
    = .uses (.sourceComposition (some 20) (some 0)) := by
  rw [c167_steady_iff _ (by simp [In.kind, In.typ, small, valid]) (v := 1e-5) rfl (by norm_num) (by norm_num)]
  refine ⟨rfl, Or.inl ⟨rfl, rfl, 200, 0, [], rfl, ?_⟩⟩
  norm_num [perVolume]

end AMPE.TempInput.Props
