/-!
# Model of `utils/substituteInputParameter.py`

Strings are lists of characters.  A file is the list of its lines, each with its line end.
-/

namespace AMPE.Substitute

/-- White space of `str.split()` as far as it occurs in input files. -/
def isBlank (c : Char) : Bool := c = ' ' || c = '\t' || c = '\n' || c = '\r'

/-- `line.split()`, utils/substituteInputParameter.py:15. -/
def words (s : List Char) : List (List Char) := (s.splitOnP isBlank).filter fun w => !w.isEmpty

/-- `newline.join(words)`, utils/substituteInputParameter.py:19. -/
def join (sep : List Char) : List (List Char) → List Char
  | [] => []
  | [w] => w
  | w :: v :: ws => w ++ sep ++ join sep (v :: ws)

/-- One turn of the loop, utils/substituteInputParameter.py:14-24: the variable `newline` before and after, and what is printed.
`none` is the exception of `words[2]` on a line of less than three words. -/
def turn (name val : List Char) (newline line : List Char) : Option (List Char × List Char) :=
  match words line with
  | [] => some (newline, line)
  | w :: ws =>
    if w = name then
      match ws with
      | v :: _ :: rest => some (join newline (w :: v :: val :: rest), ' ' :: ' ' :: (join newline (w :: v :: val :: rest) ++ ['\n']))
      | _ => none
    else some (newline, line)

/-- The loop over the lines. -/
def loop (name val : List Char) : List Char → List (List Char) → Option (List (List Char))
  | _, [] => some []
  | nl, l :: ls => (turn name val nl l).bind fun r => (loop name val r.1 ls).map fun out => r.2 :: out

/-- The script, utils/substituteInputParameter.py:7-24. -/
def substitute (name val : List Char) (file : List (List Char)) : Option (List (List Char)) := loop name val [' '] file

end AMPE.Substitute
