import Verif.Model.Quat
import Mathlib.Analysis.SpecialFunctions.Trigonometric.Inverse

/-!
# Model of the orientation arithmetic of the preparatory programs (utils/quat.py)

`numpy` arrays of four or two floats are `Q4` and `Q2`; rotation indices are Python integers, 0-based.  A Python exception is `none`.
-/

namespace AMPE.PyQuat

open AMPE.Quat

/-- `multiplyQuat` with a third argument for `qlen == 4`, utils/quat.py:78-122 (without the third argument line 82 takes the length of
an integer, an exception). -/
def mult4 (a b : Q4) : Q4 where
  q1 := a.q1 * b.q1 - a.q2 * b.q2 - a.q3 * b.q3 - a.q4 * b.q4
  q2 := a.q1 * b.q2 + a.q2 * b.q1 + a.q3 * b.q4 - a.q4 * b.q3
  q3 := a.q1 * b.q3 + a.q3 * b.q1 + a.q4 * b.q2 - a.q2 * b.q4
  q4 := a.q1 * b.q4 + a.q4 * b.q1 + a.q2 * b.q3 - a.q3 * b.q2

/-- `multiplyQuat` for `qlen == 2`, utils/quat.py:112-117. -/
def mult2 (a b : Q2) : Q2 where
  q1 := a.q1 * b.q1 - a.q2 * b.q2
  q2 := a.q1 * b.q2 + a.q2 * b.q1

/-- `rotateQuat`, utils/quat.py:126-129. -/
def rotate4 (q r : Q4) : Q4 := mult4 q r
@[inherit_doc rotate4]
def rotate2 (q r : Q2) : Q2 := mult2 q r

/-- `quatMagnitude`, utils/quat.py:152-159. -/
noncomputable def magnitude4 (q : Q4) : ℝ := Real.sqrt (0 + q.q1 * q.q1 + q.q2 * q.q2 + q.q3 * q.q3 + q.q4 * q.q4)
@[inherit_doc magnitude4]
noncomputable def magnitude2 (q : Q2) : ℝ := Real.sqrt (0 + q.q1 * q.q1 + q.q2 * q.q2)

/-- `normalizeQuat`, utils/quat.py:163-171: very small ones are left as they are. -/
noncomputable def normalize4 (q : Q4) : Q4 :=
  if magnitude4 q < 1.e-15 then q else ⟨q.q1 / magnitude4 q, q.q2 / magnitude4 q, q.q3 / magnitude4 q, q.q4 / magnitude4 q⟩
@[inherit_doc normalize4]
noncomputable def normalize2 (q : Q2) : Q2 :=
  if magnitude2 q < 1.e-15 then q else ⟨q.q1 / magnitude2 q, q.q2 / magnitude2 q⟩

/-- `quatAngle`, utils/quat.py:175-181. -/
noncomputable def angle (d : ℝ) : ℝ := if d > 2 then -1 else 4 * Real.arcsin (0.5 * d)

/-- `quatAngle2`, utils/quat.py:183-189. -/
noncomputable def angle2 (d : ℝ) : ℝ := if d > 2 then -1 else 2 * Real.arcsin (0.5 * d)

/-- `quatDiff`, utils/quat.py:197-218. -/
noncomputable def diff4 (q1 q2 qr : Q4) : ℝ × Q4 :=
  let q2p := rotate4 q2 qr
  let a := normalize4 q1
  let b := normalize4 q2p
  (magnitude4 ⟨b.q1 - a.q1, b.q2 - a.q2, b.q3 - a.q3, b.q4 - a.q4⟩, q2p)
@[inherit_doc diff4]
noncomputable def diff2 (q1 q2 qr : Q2) : ℝ × Q2 :=
  let q2p := rotate2 q2 qr
  let a := normalize2 q1
  let b := normalize2 q2p
  (magnitude2 ⟨b.q1 - a.q1, b.q2 - a.q2⟩, q2p)

/-- `quatDiff1`, utils/quat.py:220-226. -/
noncomputable def diff1 (q1 q2 qr : ℝ) : ℝ × ℝ := (|q2 + qr - q1|, q2 + qr)

/-- The arguments of `makeNormalizedQuat` in `qr4`, utils/quat.py:232-281. -/
def table4 : List (ℤ × ℤ × ℤ × ℤ) :=
  [(1, 0, 0, 0), (0, 1, 0, 0), (0, 0, 1, 0), (0, 0, 0, 1), (-1, 0, 0, 0), (0, -1, 0, 0), (0, 0, -1, 0), (0, 0, 0, -1),
   (1, 1, 0, 0), (1, 0, 1, 0), (1, 0, 0, 1), (0, 1, 1, 0), (0, 1, 0, 1), (0, 0, 1, 1), (-1, 1, 0, 0), (-1, 0, 1, 0),
   (-1, 0, 0, 1), (0, -1, 1, 0), (0, -1, 0, 1), (0, 0, -1, 1), (1, -1, 0, 0), (1, 0, -1, 0), (1, 0, 0, -1), (0, 1, -1, 0),
   (0, 1, 0, -1), (0, 0, 1, -1), (-1, -1, 0, 0), (-1, 0, -1, 0), (-1, 0, 0, -1), (0, -1, -1, 0), (0, -1, 0, -1), (0, 0, -1, -1),
   (1, 1, 1, 1), (-1, 1, 1, 1), (1, -1, 1, 1), (1, 1, -1, 1), (1, 1, 1, -1), (-1, -1, 1, 1), (-1, 1, -1, 1), (-1, 1, 1, -1),
   (1, -1, -1, 1), (1, -1, 1, -1), (1, 1, -1, -1), (1, -1, -1, -1), (-1, 1, -1, -1), (-1, -1, 1, -1), (-1, -1, -1, 1), (-1, -1, -1, -1)]

/-- `iq_qr4_conj`, utils/quat.py:285-332, as it stands (entry 40 is line 325). -/
def conj4 : List ℕ :=
  [0, 5, 6, 7, 4, 1, 2, 3, 20, 21, 22, 29, 30, 31, 26, 27, 28, 23, 24, 25, 8, 9, 10, 17, 18, 19, 14, 15, 16, 11, 12, 13,
   43, 47, 42, 41, 40, 44, 45, 46, 38, 35, 34, 32, 37, 38, 39, 33]

/-- `qr4[n,:]`. -/
noncomputable def rot4 (n : ℕ) : Q4 :=
  let v := table4.getD n (0, 0, 0, 0)
  normalize4 ⟨v.1, v.2.1, v.2.2.1, v.2.2.2⟩

/-- `qr2[n,:]`, utils/quat.py:338-341. -/
noncomputable def rot2 (n : ℕ) : Q2 :=
  let v : ℤ × ℤ := [(1, 0), (0, 1), (-1, 0), (0, -1)].getD n (0, 0)
  normalize2 ⟨v.1, v.2⟩

/-- `iq_qr2_conj`, utils/quat.py:345-348. -/
def conj2 : List ℕ := [0, 3, 2, 1]

/-- `qr1[n]`, utils/quat.py:354-362. -/
noncomputable def rot1 (n : ℕ) : ℝ :=
  [0, 0.5 * Real.pi, -0.5 * Real.pi, Real.pi, -Real.pi, 1.5 * Real.pi, -1.5 * Real.pi, 2 * Real.pi, -2 * Real.pi].getD n 0

/-- `iq_qr1_conj`, utils/quat.py:366-374. -/
def conj1 : List ℕ := [0, 2, 1, 4, 3, 6, 5, 8, 7]

/-- `getQuatSymmetryRotation` for `qlen=4` and an index that is not negative, utils/quat.py:386-396; `none`: the index is out of bounds. -/
noncomputable def symmetryRotation (n : ℕ) : Option Q4 := if n < 48 then some (rot4 n) else none

/-- `getQuatSymmetryRotationConjugate` for `qlen=4` and an index that is not negative, utils/quat.py:410-423. -/
noncomputable def symmetryRotationConjugate (n : ℕ) : Option Q4 := conj4[n]?.bind symmetryRotation

/-- The index with which the search starts, utils/quat.py:447-449, 481-483; `none`: the conjugate index is out of bounds. -/
def start (n : ℕ) (conj : List ℕ) (iq : ℤ) : Option ℕ :=
  let iq := if iq > n ∨ iq < -n then 0 else iq
  if iq < 0 then conj[(-iq).toNat]? else some iq.toNat

/-- The loop of `quatSymm` and `quatSymm1`, utils/quat.py:459-472, 493-506. -/
noncomputable def loop {α : Type} (cand : ℕ → ℝ × α) (crit : ℝ) (iq : ℕ) : List ℕ → ℝ × α → α
  | [], best => best.2
  | nn :: rest, best =>
    if nn = iq then loop cand crit iq rest best
    else
      let c := cand nn
      let best := if c.1 < best.1 then c else best
      if c.1 ≤ crit then best.2 else loop cand crit iq rest best

/-- `quatSymm` for either length, utils/quat.py:447-472; line 452 is an exception if the index is out of bounds. -/
noncomputable def symm {α : Type} (cand : ℕ → ℝ × α) (crit : ℝ) (n : ℕ) (conj : List ℕ) (iq : ℤ) : Option α :=
  match start n conj iq with
  | none => none
  | some i =>
    if n ≤ i then none
    else
      let c := cand i
      if c.1 ≤ crit then some c.2 else some (loop cand crit i (List.range n) c)

/-- `quatSymm` of quaternions, utils/quat.py:427-472. -/
noncomputable def quatSymm4 (q1 q2 : Q4) (iq : ℤ) : Option Q4 :=
  symm (fun n => diff4 q1 q2 (rot4 n)) (2 * Real.sin (Real.pi * 0.0625)) 48 conj4 iq

/-- `quatSymm` of pairs. -/
noncomputable def quatSymm2 (q1 q2 : Q2) (iq : ℤ) : Option Q2 :=
  symm (fun n => diff2 q1 q2 (rot2 n)) (2 * Real.sin (Real.pi / 8)) 4 conj2 iq

/-- What `quatSymm1` returns. -/
inductive Answer
  | exception
  | nothing
  | angle (q : ℝ)

/-- `quatSymm1`, utils/quat.py:474-506: line 487 returns no value. -/
noncomputable def quatSymm1 (q1 q2 : ℝ) (iq : ℤ) : Answer :=
  match start 9 conj1 iq with
  | none => .exception
  | some i =>
    if 9 ≤ i then .exception
    else
      let c := diff1 q1 q2 (rot1 i)
      if c.1 ≤ Real.pi / 4 then .nothing
      else .angle (loop (fun n => diff1 q1 q2 (rot1 n)) (Real.pi / 4) i (List.range 9) c)

/-- `quatMakeFundamental`, utils/quat.py:510-513. -/
noncomputable def makeFundamental (q : Q4) : Option Q4 := quatSymm4 (normalize4 ⟨1, 0, 0, 0⟩) q 0

end AMPE.PyQuat
