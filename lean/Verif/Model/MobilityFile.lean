import Verif.Model.Coefficients

/-! # Mobility parameters read from the CALPHAD file, and the table `D.dat`

`CALPHADMobility::initialize`, source/CALPHADMobility.cc:20-153, and `preRunDiagnosticsMobilityInPhases`, source/diagnostics.cc:19-93. -/

namespace AMPE.MobilityFile

open AMPE.Coefficients

/-- A database `SpeciesI/PhaseX`: the arrays `qA` .. `qD`, and `q0AB` .. `q3BC` (order, pair AB, AC, BC). -/
structure File where
  q : Fin 4 → Option (List ℝ)
  qq : Fin 4 → Fin 3 → Option (List ℝ)

/-- Number of first order terms, source/CALPHADMobility.cc:33-40. -/
def nspecies (f : File) : ℕ := (if (f.q 0).isSome then 1 else 0) + (if (f.q 1).isSome then 1 else 0) +
  (if (f.q 2).isSome then 1 else 0) + (if (f.q 3).isSome then 1 else 0)

/-- `index_map[letter]` of the key with number `s`: 'D' was not inserted, source/CALPHADMobility.cc:22-25, 54. -/
def slot (s : Fin 4) : ℕ := if s = 1 then 1 else if s = 2 then 2 else 0

/-- First order terms while they are read. -/
structure Lin where
  q : ℕ → ℝ × ℝ
  hasExtra : Bool
  extra : ℕ → ℝ × ℝ

/-- Body of the loop, source/CALPHADMobility.cc:43-61. `none`: fewer than two or more than four entries (an assertion, and
the array `tmp` has four), or an index beyond the vector. `junk` is the content of `tmp[3]` when it is not set. -/
def readLin (n : ℕ) (junk : ℝ) (f : File) (l : Lin) (s : Fin 4) : Option Lin :=
  match f.q s with
  | none => some l
  | some a =>
    if 2 ≤ a.length ∧ a.length ≤ 4 ∧ slot s < n then
      some {
        q := Function.update l.q (slot s) (a.getD 0 0, a.getD 1 0)
        hasExtra := l.hasExtra || decide (2 < a.length)
        extra := if 2 < a.length then Function.update l.extra (slot s) (a.getD 2 0, a.getD 3 junk) else l.extra }
    else none

/-- Indices of the pairs AB, AC, BC. -/
def pairOf (j : Fin 3) : ℕ × ℕ := if j = 0 then (0, 1) else if j = 1 then (0, 2) else (1, 2)

/-- One interaction term: `(0, 1)` if it is absent, `none` if the array does not have two entries (`getDoubleArray`). -/
def readPair (a : Option (List ℝ)) : Option (ℝ × ℝ) :=
  match a with
  | none => some (0, 1)
  | some l => if l.length = 2 then some (l.getD 0 0, l.getD 1 0) else none

/-- The interaction terms of one order, source/CALPHADMobility.cc:64-152: AB always, AC and BC with more than two species; other entries
are those of a new vector. -/
def readOrder (n : ℕ) (g : Fin 3 → Option (List ℝ)) : Option (ℕ → ℕ → ℝ × ℝ) :=
  if n < 2 then none
  else do
    let ab ← readPair (g 0)
    if 2 < n then
      let ac ← readPair (g 1)
      let bc ← readPair (g 2)
      return fun i j => if (i, j) = (0, 1) then ab else if (i, j) = (0, 2) then ac else if (i, j) = (1, 2) then bc else (0, 0)
    else return fun i j => if (i, j) = (0, 1) then ab else (0, 0)

/-- `initialize`. -/
def read (junk : ℝ) (f : File) : Option MobParams := do
  let l ← [0, 1, 2, 3].foldlM (readLin (nspecies f) junk f) ⟨fun _ => (0, 0), false, fun _ => (0, 0)⟩
  let q0 ← readOrder (nspecies f) (f.qq 0)
  let q1 ← readOrder (nspecies f) (f.qq 1)
  let q2 ← readOrder (nspecies f) (f.qq 2)
  let q3 ← readOrder (nspecies f) (f.qq 3)
  return { q := l.q, hasExtra := l.hasExtra, qExtra := l.extra, qq0 := q0, qq1 := q1, qq2 := q2, qq3 := q3 }

/-- Temperature number `i` of the table, source/CALPHADMobility.cc:185-189. -/
noncomputable def temperature (tmin tmax : ℝ) (i : ℕ) : ℝ := tmin + i * ((tmax - tmin) / 99)

/-- `printDiffusionVsTemperature`, source/CALPHADMobility.cc:181-195. -/
noncomputable def block (R tmin tmax : ℝ) (p : MobParams) : List (ℝ × ℝ) :=
  (List.range 100).map fun i =>
    let T := temperature tmin tmax i
    (10000 / T, atomicMobility R (deltaG2 R p 1 0 T) T * T * R)

/-- The file `D.dat`, source/diagnostics.cc:66-92: liquid species 0 and 1, solid species 0 and 1, in the order of the titles. -/
noncomputable def table (R T : ℝ) (l0 _l1 a0 a1 : MobParams) : List (List (ℝ × ℝ)) :=
  [block R (T * 0.5) (T * 2) l0, block R (T * 0.5) (T * 2) l0, block R (T * 0.5) (T * 2) a0, block R (T * 0.5) (T * 2) a1]

end AMPE.MobilityFile
