import Verif.Model.EventInterval

/-!
# The log of a run and `utils/volfracvstime.py`

A line of the log is one that tells cycle and time, one that tells a volume fraction, or any other; only the first contains the word
`cycle` and only the second the words `Volume fraction` (searched for in source/ and drivers/).
-/

namespace AMPE.VolFrac

open AMPE.EventInterval

/-- A line of the log: `cycle # n : t = ...` (source/PFModel.cc:450, 473-474; source/QuatModel.cc:2567), `Volume fraction of ... = ...`
(source/QuatModel.cc:2613, 2619, 2625, 2637: the value is the seventh word in all of them), or another one. -/
inductive Line where
  | cycle (t : ℝ)
  | frac (v : ℝ)
  | other

/-! ## The run -/

/-- What `printScalarDiagnostics` prints at one time, source/QuatModel.cc:2552-2677: a line for the thermal energy (`heat`), `mid` lines of
energies and temperatures, the volume fractions, `tail` lines of mobilities, compositions and density. -/
structure Diag where
  heat : Bool
  mid : ℕ
  fracs : List ℝ
  tail : ℕ

/-- `printScalarDiagnostics`, source/QuatModel.cc:2552-2677; the line with the time is printed unless the step has printed it (2566-2568). -/
noncomputable def printScalar (s : State) (t : ℝ) (d : Diag) : List Line :=
  (if d.heat then [.other] else []) ++ (if eventOccurredAtTime s t then [] else [.cycle t]) ++ List.replicate d.mid .other
    ++ d.fracs.map .frac ++ List.replicate d.tail .other

/-- The diagnostics of `d_scalar_diag_interval`, printed or not. -/
noncomputable def diagLines (s : State) (t : ℝ) (d : Option Diag) : List Line := d.elim [] (printScalar s t)

/-- Begin of `Run`, source/PFModel.cc:437-461: `preRunDiagnostics` (source/QuatModel.cc:2378-2438) with `pre` lines before and `mid` after
the diagnostics, the line with the time, then `post` lines (grains). -/
noncomputable def begin (notSilent : Bool) (s : State) (t : ℝ) (pre mid post : ℕ) (d : Option Diag) : State × List Line :=
  let r := if notSilent then includeInitial s t else (s, false)
  (r.1, List.replicate pre .other ++ diagLines s t d ++ List.replicate mid .other ++ (if r.2 then [.cycle t] else [])
    ++ List.replicate post .other)

/-- A pass of the loop: `t` is the time after `Advance`, which prints `adv` lines; `mid` lines (restart, grains) are between the line with
the time and the diagnostics, `post` lines (regridding) after them. -/
structure Pass where
  t : ℝ
  adv : ℕ
  mid : ℕ
  diag : Option Diag
  post : ℕ

/-- A pass of the loop, source/PFModel.cc:464-507. -/
noncomputable def pass (notSilent : Bool) (s : State) (k : ℤ) (x : Pass) : Option (State × List Line) :=
  (if notSilent then hasIntervalPassed s k x.t else some (s, false)).map fun r =>
    (r.1, List.replicate x.adv .other ++ (if r.2 then [.cycle x.t] else []) ++ List.replicate x.mid .other ++ diagLines r.1 x.t x.diag
      ++ List.replicate x.post .other)

/-- The loop, source/PFModel.cc:464-507. -/
noncomputable def passes (notSilent : Bool) : State → ℤ → List Pass → Option (State × List Line)
  | s, _, [] => some (s, [])
  | s, k, x :: xs => (pass notSilent s k x).bind fun r => (passes notSilent r.1 (k + 1) xs).map fun q => (q.1, r.2 ++ q.2)

/-- The log of a run, source/PFModel.cc:437-526, with the diagnostics `dEnd` of `postRunDiagnostics` (source/QuatModel.cc:2536-2544) at the
time of the last pass. -/
noncomputable def log (notSilent : Bool) (s : State) (t0 : ℝ) (pre mid post : ℕ) (d0 : Option Diag) (k : ℤ) (xs : List Pass)
    (dEnd : Option Diag) (after : ℕ) : Option (List Line) :=
  let b := begin notSilent s t0 pre mid post d0
  (passes notSilent b.1 k xs).map fun q =>
    b.2 ++ q.2 ++ diagLines q.1 ((xs.map Pass.t).getLastD t0) dEnd ++ List.replicate after .other

/-! ## The script -/

/-- `L[i]` in Python: negative indices count from the end, `none` is the `IndexError`. -/
def pyGet (L : List Line) (i : ℤ) : Option Line :=
  if 0 ≤ i then L[i.toNat]? else if 0 ≤ i + L.length then L[(i + L.length).toNat]? else none

/-- The search `for line2 in range(line-1,line-1000,-1)`, utils/volfracvstime.py:29-35, from line `i` on with `fuel` turns left: `none` is the
`IndexError`, `some none` that the loop ends without `break`. -/
def back (L : List Line) : ℤ → ℕ → Option (Option ℝ)
  | _, 0 => some none
  | i, fuel + 1 =>
    match pyGet L i with
    | none => none
    | some (.cycle t) => some (some t)
    | some _ => back L (i - 1) fuel

/-- The loop over the lines, utils/volfracvstime.py:24-38, from line `n` on; `time` is the variable of the script, the result what is printed. -/
def scan (L : List Line) : ℕ → ℝ → List Line → Option (List (ℝ × ℝ))
  | _, _, [] => some []
  | n, time, .frac v :: rest =>
    (back L ((n : ℤ) - 1) 999).bind fun r => (scan L (n + 1) (r.getD time) rest).map fun out => (r.getD time, v) :: out
  | n, time, _ :: rest => scan L (n + 1) time rest

/-- The script, utils/volfracvstime.py:16-38. -/
def script (L : List Line) : Option (List (ℝ × ℝ)) := scan L 0 0 L

end AMPE.VolFrac
