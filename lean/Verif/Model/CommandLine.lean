import Mathlib.Data.Int.Basic
import Mathlib.Data.List.Basic

/-!
# Model of the command line and of the names of the output

`main` (source/main.cc:18-62), the object `AMPE` (source/AMPE.h:21-50, source/AMPE.cc:19-134) and the names derived from the name of the run
(source/PFModel.cc:87-99, 320-323).

Strings are lists of characters; `size_t` is arithmetic modulo `2 ^ 64`.  Not modelled: MPI, timers, what is printed in the log.
-/

namespace AMPE.CommandLine

abbrev Str := List Char

/-- `std::string::npos`. -/
def npos : ℕ := 2 ^ 64 - 1

/-- `std::string::find_last_of` and `rfind` for one character: position of the last occurrence, `npos` if there is none. -/
def lastOf (c : Char) : Str → ℕ
  | [] => npos
  | x :: s =>
    let r := lastOf c s
    if r = npos then (if x = c then 0 else npos) else r + 1

/-- `std::string::substr(a, n)` for a position in the string: at most `n` characters from `a` on. -/
def substr (s : Str) (a n : ℕ) : Str := (s.drop a).take n

/-- Name of the run made from the name of the input file, source/AMPE.cc:47-52: `b - a` is unsigned. -/
def nameFromFile (file : Str) : Str :=
  let a := lastOf '/' file
  let a := if a = npos then 0 else a
  let a := if 0 < a then a + 1 else a
  let b := lastOf '.' file
  substr file a ((b + 2 ^ 64 - a) % 2 ^ 64)

/-- The entries of the input database that are read for the names: `run_name`, `Logging { filename }`, `Restart { dirname }`,
`Visit { dirname }`, and `model_type`. -/
structure Db where
  runName : Option Str
  logFile : Option Str
  restartDir : Option Str
  visitDir : Option Str
  modelType : Option Str

/-- source/AMPE.cc:42-54. -/
def runName (db : Db) (file : Str) : Str := db.runName.getD (nameFromFile file)

/-- Where the run writes: log (source/AMPE.cc:57-63), restart files (source/PFModel.cc:87-99), plots (source/PFModel.cc:320-323). -/
structure Names where
  log : Str
  restart : Str
  visit : Str
deriving DecidableEq

def names (db : Db) (file : Str) : Names where
  log := db.logFile.getD (runName db file ++ ".log".toList)
  restart := db.restartDir.getD ("r.".toList ++ runName db file)
  visit := db.visitDir.getD ("v.".toList ++ runName db file)

/-- Length of the orientation of the model, source/AMPE.cc:91-108; `none` is `TBOX_ERROR`. -/
def modelLength (ndim : ℕ) (db : Db) : Option ℕ :=
  let t := db.modelType.getD "Quat".toList
  if t = "Quat".toList then some 4
  else if ndim = 2 then
    if t = "KWC".toList then some 1 else if t = "KWCcomplex".toList then some 2 else none
  else none

/-- White space of the C locale. -/
def isSpace (c : Char) : Bool := c = ' ' || (9 ≤ c.toNat && c.toNat ≤ 13)

/-- Value of the digits in front. -/
def digitsValue : ℕ → Str → ℕ
  | v, [] => v
  | v, c :: s => if c.isDigit then digitsValue (10 * v + (c.toNat - 48)) s else v

/-- A sign and digits. -/
def signed : Str → ℤ
  | '-' :: t => -(digitsValue 0 t : ℤ)
  | '+' :: t => digitsValue 0 t
  | t => digitsValue 0 t

/-- `atoi` of the C library (called in source/main.cc:52): white space, a sign, digits; zero if there is no digit.  `none` is the undefined
behaviour when the value is not an `int`. -/
def atoi (s : Str) : Option ℤ :=
  let v := signed (s.dropWhile isSpace)
  if -2 ^ 31 ≤ v ∧ v < 2 ^ 31 then some v else none

/-- What a run starts from. -/
inductive Start
  | fresh (file : Str)
  | restart (file dir : Str) (num : ℤ)
deriving DecidableEq

/-- `AMPE::initialize` takes a number that is not negative for a restart, source/AMPE.cc:79. -/
def start (file dir : Str) (num : ℤ) : Start := if 0 ≤ num then .restart file dir num else .fresh file

/-- What the program does: a run, or the text of usage, after which the destructor of `AMPE` deletes `d_pfm`, a pointer that has not been set
(source/main.cc:38-45, source/AMPE.cc:26-28, source/AMPE.h:46): undefined behaviour. -/
inductive Outcome
  | run (s : Start)
  | usageThenUndefined
deriving DecidableEq

/-- `main`, source/main.cc:18-62; `argv` with the name of the program in front.  `none` is undefined behaviour of `atoi`. -/
def main (argv : List Str) : Option Outcome :=
  if argv.length ≠ 2 ∧ argv.length ≠ 4 then some .usageThenUndefined
  else
    let file := argv.getD 1 []
    if argv.length = 4 then (atoi (argv.getD 3 [])).map fun n => .run (start file (argv.getD 2 []) n)
    else some (.run (start file [] (-1)))

end AMPE.CommandLine
