import Mathlib.Data.Real.Basic

/-!
# Profiles along a line (utils/lineplotPhiQuat.py, utils/plotConcentrations.py)

The first script draws a line through the fields of every dump with VisIt and writes one text file per field and dump; the second reads
the files with `numpy.loadtxt` and plots them.  VisIt is represented by the fields each dump has and by the list of curves in its second
window, in the order in which they were drawn.  Numbers are real numbers, `%g` is an argument `fmt`, the reading of a number an argument
`parse`; texts are lists of characters.  Not modelled: names of the files, pictures, the case that VisIt is given the number of a curve it does
not have (`none`).
-/

namespace AMPE.LinePlot

/-- Fields asked for, utils/lineplotPhiQuat.py:34-42. -/
def allVars : List String := ["phase0", "concentration0", "concentration1", "q0", "q1", "q2", "q3", "temperature"]

/-- Fields kept after a dump, utils/lineplotPhiQuat.py:48, 63-67: those not found are removed one by one. -/
def keep (has : String → Bool) (vars : List String) : List String :=
  (vars.filter fun v => !has v).foldl List.erase vars

/-- Fields kept and curves drawn (number of the dump, field) after `k` dumps, utils/lineplotPhiQuat.py:45-67. -/
def draw (has : ℕ → String → Bool) : ℕ → List String × List (ℕ × String)
  | 0 => (allVars, [])
  | k + 1 =>
    let s := draw has k
    (keep (has k) s.1, s.2 ++ (s.1.filter (has k)).map fun v => (k, v))

/-- The curve written to the file with the name of the field number `j` in turn `k`, utils/lineplotPhiQuat.py:71-79. -/
def curveFor (has : ℕ → String → Bool) (frames k j : ℕ) : Option (String × ℕ × String) :=
  let s := draw has frames
  let n := s.1.length
  match s.1[j]?, s.2[k * n + j]? with
  | some label, some c => some (label, c)
  | _, _ => none

/-- First line of a file, utils/lineplotPhiQuat.py:81: no end of line. -/
def header (fmt : ℝ → List Char) (name : List Char) (t : ℝ) : List Char := "# ".toList ++ name ++ " --- time: ".toList ++ fmt t

/-- Line of one point, utils/lineplotPhiQuat.py:86; the curve is the list x0, y0, x1, y1, ... -/
noncomputable def row (fmt : ℝ → List Char) (x0 : ℝ) (vals : List ℝ) (i : ℕ) : List Char :=
  fmt (x0 + vals.getD (2 * i) 0) ++ "  ".toList ++ fmt (vals.getD (2 * i + 1) 0) ++ ['\n']

/-- Content of a file, utils/lineplotPhiQuat.py:80-87.  `none`: `range` of a quotient, which is not an integer in Python 3, raises an exception. -/
noncomputable def text (python3 : Bool) (fmt : ℝ → List Char) (name : List Char) (t x0 : ℝ) (vals : List ℝ) : Option (List Char) :=
  if python3 then none else some (header fmt name t ++ ((List.range (vals.length / 2)).flatMap (row fmt x0 vals)) ++ ['\n'])

/-- Pieces between separators. -/
def split (d : Char) : List Char → List (List Char)
  | [] => [[]]
  | c :: cs =>
    if c = d then [] :: split d cs else
      match split d cs with
      | l :: ls => (c :: l) :: ls
      | [] => [[c]]

/-- `numpy.loadtxt` as called in utils/plotConcentrations.py:16, 32: lines, text after `#` dropped, words separated by blanks, lines without words
skipped; `none`: a word is not a number. -/
def loadtxt (parse : List Char → Option ℝ) (f : List Char) : Option (List (List ℝ)) :=
  (((split '\n' f).map fun l => (split ' ' (l.takeWhile (· ≠ '#'))).filter (· ≠ [])).filter (· ≠ [])).mapM fun w => w.mapM parse

/-- `X`, `Y` of a plotted curve, utils/plotConcentrations.py:16-18.  `none`: the reading fails, lines have different numbers of words, or the array
has one dimension only because there is at most one line, so that `data[:,0]` raises an exception. -/
noncomputable def plotted (parse : List Char → Option ℝ) (f : List Char) : Option (List (ℝ × ℝ)) :=
  match loadtxt parse f with
  | none => none
  | some rows =>
    if 2 ≤ rows.length ∧ ∀ r ∈ rows, r.length = (rows.getD 0 []).length ∧ 2 ≤ r.length then some (rows.map fun r => (r.getD 0 0, r.getD 1 0))
    else none

end AMPE.LinePlot
