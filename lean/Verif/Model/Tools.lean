import Mathlib.Algebra.Order.Archimedean.Real.Basic
import Mathlib.Data.Finset.Sort
import Mathlib.Algebra.Order.BigOperators.Group.Finset

/-!
# Model of the gather helpers (source/tools.cc) and of `MinIntCoarsen`

MPI collectives are modelled by what MPI guarantees: `MPI_Allgather` of one integer per rank is the
list of those integers in rank order; `MPI_Allgatherv` writes entry `i` of rank `p` at position
`disps[p] + i` of the receive buffer of every rank; a sum reduction is the sum over ranks.
`std::map<int,double>` is a function `ℤ → Option ℝ` on keys (`none`: key absent).
-/

namespace AMPE.Tools

/-- `disps`, source/tools.cc:88-91. -/
def disps (rcounts : List ℕ) : List ℕ :=
  (List.range rcounts.length).foldl
    (fun d p => d ++ [if p = 0 then 0 else d.getD (p - 1) 0 + rcounts.getD (p - 1) 0]) []

/-- One write of `MPI_Allgatherv` into the receive buffer; out-of-range writes are `none`. -/
def place {α : Type} (out : List (Option α)) (pos : ℕ) (x : α) : Option (List (Option α)) :=
  if pos < out.length then some (out.set pos (some x)) else none

/-- All writes of rank `p`. -/
def placeAll {α : Type} (out : List (Option α)) (disp : ℕ) : List α → Option (List (Option α))
  | [] => some out
  | x :: l => (place out disp x).bind fun o => placeAll o (disp + 1) l

/-- `allGatherSetup` + `allGatherv`, source/tools.cc:76-124: `bufs` holds the input buffer of every rank;
`sizeOut` is the size of the receive buffer.  `none` is `TBOX_ERROR` or a write outside the buffer;
unwritten entries stay `none`. -/
def allGatherv {α : Type} (bufs : List (List α)) (sizeOut : ℕ) : Option (List (Option α)) :=
  let rcounts := bufs.map List.length
  if rcounts.foldl (· + ·) 0 ≠ sizeOut then none
  else (bufs.zip (disps rcounts)).foldlM (fun out b => placeAll out b.2 b.1) (List.replicate sizeOut none)

/-- `sumReduction(int)`, source/tools.cc:66-72. -/
def sumReduction (xs : List ℕ) : ℕ := xs.sum

/-- A `std::map<int, double>`. -/
abbrev IMap := ℤ → Option ℝ

/-- `m[k] += v`. -/
noncomputable def addTo (m : IMap) (k : ℤ) (v : ℝ) : IMap :=
  fun j => if j = k then some ((m k).getD 0 + v) else m j

/-- A local map as the list of its (key, value) pairs, in the order of iteration. -/
abbrev Entries := List (ℤ × ℝ)

/-- `listLocalToGlobal`, source/tools.cc:20-48: `lcl` holds the entries of the local map of every rank (in
iteration order), `gbl` the map it is added to.  `none` is a failed gather. -/
noncomputable def listLocalToGlobal (lcl : List Entries) (gbl : IMap) : Option IMap :=
  let sizeOut := sumReduction (lcl.map List.length)
  (allGatherv (lcl.map fun e => e.map Prod.fst) sizeOut).bind fun ns =>
    (allGatherv (lcl.map fun e => e.map Prod.snd) sizeOut).bind fun vs =>
      (ns.zip vs).foldlM (fun m p =>
        match p with
        | (some n, some v) => some (addTo m n v)
        | _ => none) gbl

/-- `MinIntCoarsen::coarsen` for one coarse cell, source/MinIntCoarsen.cc:84-106: `fine` lists the values of
the fine cells of the coarse cell in iteration order. -/
def minIntCoarsen (fine : List ℤ) : ℤ :=
  fine.foldl (fun coarse f => if f ≥ 0 then (if coarse < 0 ∨ f < coarse then f else coarse) else coarse) (-1)

end AMPE.Tools
