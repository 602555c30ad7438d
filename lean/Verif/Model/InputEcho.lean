import Mathlib.Data.Int.Log
import Mathlib.Algebra.Order.Archimedean.Real.Basic
import Mathlib.Algebra.Order.Round

/-! # Conversion of input databases to property trees (`copyDatabase`)

The trees are the form in which thermodynamic (CALPHAD, KKS) and Newton-solver settings reach the solvers
(source/KKSdiluteBinary.cc:62, source/PhaseConcentrationsStrategyFactory.h:60,
source/CALPHADequilibriumPhaseConcentrationsStrategyMultiOrder.cc:43-47). -/

namespace AMPE.InputEcho

/-- Array stored under a key, one constructor per `tbox::Database::DataType` other than `SAMRAI_DATABASE`; scalars are
arrays of size 1, as in SAMRAI. Box contents are not interpreted. -/
inductive Leaf
  | bool (l : List Bool)
  | char (l : List Char)
  | int (l : List ℤ)
  | dbl (l : List ℝ)
  | flt (l : List ℝ)
  | str (l : List String)
  | complex (l : List (ℝ × ℝ))
  | box (l : List (List ℤ × List ℤ))

mutual
/-- `tbox::Database`: entries in the order of `getAllKeys()`. -/
inductive DB
  | nil
  | cons (key : String) (v : Val) (rest : DB)
/-- Value of a key. -/
inductive Val
  | leaf (l : Leaf)
  | db (d : DB)
end

/-- Text of a tree node, represented by what it denotes: `real r` is a decimal text denoting `r`. -/
inductive Atom
  | empty
  | char (c : Char)
  | int (n : ℤ)
  | real (r : ℝ)
  | str (s : String)

mutual
/-- `boost::property_tree::ptree`. -/
inductive Tree
  | node (data : Atom) (children : Forest)
/-- Ordered children, keys may repeat. -/
inductive Forest
  | nil
  | cons (key : String) (t : Tree) (rest : Forest)
end

namespace Forest

/-- `push_back`, and `add_child` for a key without path separators (input-file keys are identifiers, so they never
contain the separator `.`). -/
def push : Forest → String → Tree → Forest
  | nil, k, t => cons k t nil
  | cons k' t' r, k, t => cons k' t' (push r k t)

/-- First child with the given key (`get_child_optional`). -/
def find : Forest → String → Option Tree
  | nil, _ => none
  | cons k t r, key => if k = key then some t else find r key

/-- `put(key, value)`: replaces the data of the first child with this key, otherwise appends a child. -/
def put : Forest → String → Atom → Forest
  | nil, k, a => cons k (.node a nil) nil
  | cons k' (.node b c) r, k, a => if k' = k then cons k' (.node a c) r else cons k' (.node b c) (put r k a)

end Forest

/-- Value denoted by `ss << std::setprecision(10) << value` (source/Database2JSON.cc:71-76): the decimal with ten significant
digits nearest to the value (halves away from zero or to even are not distinguished by any theorem). -/
noncomputable def sig10 (x : ℝ) : ℝ :=
  round (x / (10 : ℝ) ^ (Int.log 10 |x| - 9)) * (10 : ℝ) ^ (Int.log 10 |x| - 9)

/-- `std::vector` of nodes pushed with the empty key, e.g. source/Database2JSON.cc:51-57. -/
def arrayNodes : List Atom → Forest
  | [] => .nil
  | a :: l => .cons "" (.node a .nil) (arrayNodes l)

/-- One array: size 1 goes through `put`, anything else becomes a child list. -/
def storeArray (f : Forest) (key : String) (l : List Atom) : Forest :=
  match l with
  | [a] => f.put key a
  | l => f.push key (.node .empty (arrayNodes l))

/-- The type dispatch, source/Database2JSON.cc:46-118: characters, integers, doubles, floats, strings; there is no branch for
booleans, complex numbers and boxes. `flt`: text of a `float` (default precision of the translator, enough digits). -/
noncomputable def storeLeaf (f : Forest) (key : String) (l : Leaf) : Forest :=
  match l with
  | .char l => storeArray f key (l.map .char)
  | .int l => storeArray f key (l.map .int)
  | .dbl l => storeArray f key (l.map fun x => .real (sig10 x))
  | .flt l => storeArray f key (l.map .real)
  | .str l => storeArray f key (l.map .str)
  | .bool _ => f
  | .complex _ => f
  | .box _ => f

mutual
/-- `copyDatabase(database, ptree&)`, source/Database2JSON.cc:26-119. -/
noncomputable def copyTree : DB → Forest → Forest
  | .nil, f => f
  | .cons k v r, f => copyTree r (copyVal k v f)
/-- One key, source/Database2JSON.cc:33-118. -/
noncomputable def copyVal : String → Val → Forest → Forest
  | k, .leaf l, f => storeLeaf f k l
  | k, .db d, f => f.push k (.node .empty (copyTree d .nil))
end

mutual
/-- `copyDatabase(database, new_database)`, source/Database2JSON.cc:121-186, into an empty database; every `put` appends. -/
def copyDB : DB → DB
  | .nil => .nil
  | .cons k v r => copyEntry k v (copyDB r)
/-- One key; no branch for complex numbers and boxes. -/
def copyEntry : String → Val → DB → DB
  | k, .db d, rest => .cons k (.db (copyDB d)) rest
  | _, .leaf (.complex _), rest => rest
  | _, .leaf (.box _), rest => rest
  | k, .leaf l, rest => .cons k (.leaf l) rest
end

end AMPE.InputEcho
