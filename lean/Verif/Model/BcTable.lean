import Mathlib.Algebra.Order.Archimedean.Real.Basic

/-! # Time-dependent boundary values read from a table -/

namespace AMPE.BcTable

/-- One entry of the maps `d_t_map`, `d_a_map`, `d_b_map`, `d_g_map` of a face. The four vectors are always filled
together (source/TimeLocationIndexRobinBcCoefs.cc:76-79, 96-99), so they are modelled as one list of entries. -/
structure Entry where
  t : ℝ
  a : ℝ
  b : ℝ
  g : ℝ

/-- Kind of boundary condition in the table file, source/TimeLocationIndexRobinBcCoefs.cc:66-110. -/
inductive Kind
  | value
  | slope

/-- One line `time_j = t, g`, source/TimeLocationIndexRobinBcCoefs.cc:72-80, 92-100. -/
def mkEntry (kind : Kind) (x : ℝ × ℝ) : Entry :=
  match kind with
  | .value => ⟨x.1, 1, 0, x.2⟩
  | .slope => ⟨x.1, 0, 1, x.2⟩

/-- The `do ... while (flag)` loops, source/TimeLocationIndexRobinBcCoefs.cc:67-84, 87-104: `time_0`, `time_1`, ... are read
until the first missing key; `h`: some key is missing (a file is finite). -/
noncomputable def readTable (kind : Kind) (db : ℕ → Option (ℝ × ℝ)) (h : ∃ j, db j = none) : List Entry :=
  open Classical in (List.range (Nat.find h)).filterMap fun j => (db j).map (mkEntry kind)

/-- `while (d_t_map[location][prev] <= fill_time) prev++`, source/TimeLocationIndexRobinBcCoefs.cc:162-165; `none` when the
vector is read past its end (undefined behaviour). -/
noncomputable def scan (tab : List Entry) (time : ℝ) (k : ℕ) : Option ℕ :=
  if h : k < tab.length then
    open Classical in if (tab[k]).t ≤ time then scan tab time (k + 1) else some k
  else none
termination_by tab.length - k

/-- What a call does. -/
inductive Outcome
  /-- the vector is read past its end -/
  | undefined
  /-- `TBOX_ERROR`, "May need larger search range for time index" -/
  | error
  /-- coefficients `a`, `b`, `g` and the new value of the static `prev_time_slot[location]` -/
  | values (a b g : ℝ) (slot : ℕ)

/-- Where the search starts, source/TimeLocationIndexRobinBcCoefs.cc:157-160. The slot is never negative, so subtraction in
the naturals followed by `max _ 1` is the same as in the integers. -/
def start (slot : ℕ) : ℕ := max (slot - 10) 1

/-- `setBcCoefs` for one face, source/TimeLocationIndexRobinBcCoefs.cc:134-216; `slot` is the static `prev_time_slot[location]`
on entry. `assert`s are not modelled (release build). -/
noncomputable def setBcCoefs (tab : List Entry) (time : ℝ) (slot : ℕ) : Outcome :=
  match scan tab time (start slot) with
  | none => .undefined
  | some k =>
    let prev := k - 1
    let next := prev + 1
    match tab[prev]?, tab[next]? with
    | some p, some n =>
      open Classical in
      if p.t > time ∨ n.t < time then .error
      else
        let dtinv := 1 / (n.t - p.t)
        let wl := dtinv * (time - p.t)
        let wr := dtinv * (n.t - time)
        .values (wr * p.a + wl * n.a) (wr * p.b + wl * n.b) (wr * p.g + wl * n.g) prev
    | _, _ => .undefined

/-- Function-static slots, one per face, shared by all objects (source/TimeLocationIndexRobinBcCoefs.cc:149-150). -/
abbrev Slots := Fin 6 → ℕ

/-- One call: the object's table of the face, the face, the requested time. -/
structure Call where
  tab : List Entry
  face : Fin 6
  time : ℝ

/-- Slots after a call; `none` once a call failed (the run is over). -/
noncomputable def after (s : Slots) (c : Call) : Option Slots :=
  match setBcCoefs c.tab c.time (s c.face) with
  | .values _ _ _ k => some (Function.update s c.face k)
  | _ => none

/-- A history of calls from the initial statics `{0,0,0,0,0,0}`. -/
noncomputable def run (cs : List Call) : Option Slots := cs.foldlM after fun _ => 0

/-- `rescaleGcoefficients`, source/TimeLocationIndexRobinBcCoefs.cc:218-228. -/
noncomputable def rescale (factor : ℝ) (tab : List Entry) : List Entry :=
  tab.map fun e => ⟨e.t, e.a, e.b, e.g * factor⟩

end AMPE.BcTable
