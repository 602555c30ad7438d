import Verif.Model.Nuclei
import Verif.Model.PyQuat

/-!
# Generators of nuclei with the three Bain orientations

utils/make_nucleiBain.py and utils/make_nucleiBain2D.py.  Numbers are real numbers.  The loop that moves the centres apart is the one of
utils/make_nuclei.py (`Nuclei.imposeMinDistance`; utils/make_nucleiBain.py:143-225 with distance `3.*radius`, line 274).  Not modelled: printing, the random
choice of the centres before they are moved, the loop in two dimensions.
-/

namespace AMPE.Bain

open AMPE.Nuclei (Pt distance1 distance2)
open AMPE.PyQuat (normalize4)
open AMPE.Quat (Q4)

/-- `range(-1,2)`. -/
def im : List ℤ := [-1, 0, 1]

/-- What the script reads: utils/make_nucleiBain.py:33-92, and the centres. -/
structure Job where
  nx : ℕ
  ny : ℕ
  nz : ℕ
  n : ℕ
  centre : ℕ → Pt
  radius : ℝ
  phaseIn : ℝ
  phaseOut : ℝ
  nominal : ℝ
  concIn : ℝ

/-- Middle of a cell, utils/make_nucleiBain.py:290-299. -/
noncomputable def mid (c : ℕ × ℕ × ℕ) : Pt := ⟨c.1 + 0.5, c.2.1 + 0.5, c.2.2 + 0.5⟩

/-- A nucleus sets a cell, utils/make_nucleiBain.py:287-303, 326-342: first the distances in `z` and in `y`, both by `distance2_1d` (lines 131-137), which
uses `nx`, then the full distance (lines 115-128). -/
def sets (J : Job) (g : ℕ) (c : ℕ × ℕ × ℕ) : Prop :=
  distance1 im J.nx (mid c).z (J.centre g).z < J.radius ^ 2 ∧ distance1 im J.nx (mid c).y (J.centre g).y < J.radius ^ 2 ∧
    distance2 im im im J.nx J.ny J.nz (mid c) (J.centre g) < J.radius ^ 2

open Classical in
/-- A field filled with `out`, then with `inside` by one nucleus after the other. -/
noncomputable def fill (J : Job) (out inside : ℝ) (c : ℕ × ℕ × ℕ) : ℝ :=
  (List.range J.n).foldl (fun v g => if sets J g c then inside else v) out

/-- `phase`, utils/make_nucleiBain.py:278-303, 343. -/
noncomputable def phase (J : Job) : ℕ × ℕ × ℕ → ℝ := fill J J.phaseOut J.phaseIn

/-- All cells. -/
def cells (J : Job) : Finset (ℕ × ℕ × ℕ) := Finset.range J.nx ×ˢ Finset.range J.ny ×ˢ Finset.range J.nz

/-- `vol`, utils/make_nucleiBain.py:76. -/
def vol (J : Job) : ℝ := J.nx * J.ny * J.nz

/-- `int_phase` after division, utils/make_nucleiBain.py:307-315. -/
noncomputable def intPhase (J : Job) : ℝ := (∑ c ∈ cells J, phase J c) / vol J

/-- `conc_outside`, utils/make_nucleiBain.py:316. -/
noncomputable def concOut (J : Job) : ℝ := (J.nominal - J.concIn * intPhase J) / (1 - intPhase J)

/-- `conc`, utils/make_nucleiBain.py:320-342. -/
noncomputable def conc (J : Job) : ℕ × ℕ × ℕ → ℝ := fill J (concOut J) J.concIn

open Classical in
/-- Nucleus whose orientation a cell gets; `none`: `quat_outside`.  utils/make_nucleiBain.py:283-305. -/
noncomputable def owner (J : Job) (c : ℕ × ℕ × ℕ) : Option ℕ := (List.range J.n).foldl (fun v g => if sets J g c then some g else v) none

/-- The list `q` of a nucleus, utils/make_nucleiBain.py:98-109 and utils/make_nucleiBain2D.py:88-101. -/
noncomputable def list (g : ℕ) : Q4 :=
  let q1 := fun i => if (g + i) % 3 = 0 then Real.sin (Real.pi / 8) else 0
  ⟨Real.cos (Real.pi / 8), q1 0, q1 1, q1 2⟩

/-- `quat_inside[g]`, utils/make_nucleiBain.py:112. -/
noncomputable def quat (g : ℕ) : Q4 := normalize4 (list g)

/-- Components written to the file: the first `qlen`; `none`: index error.  utils/make_nucleiBain.py:81-82, 304-305. -/
noncomputable def written (qlen : ℕ) (q : Q4) : Option (List ℝ) := if qlen ≤ 4 then some ([q.q1, q.q2, q.q3, q.q4].take qlen) else none

/-- `distance2` without short cuts, utils/make_nucleiBain2D.py:107-118. -/
noncomputable def distanceP (nx ny nz : ℝ) (p q : Pt) : ℝ :=
  im.foldl (fun d2 (i : ℤ) => im.foldl (fun d2 (j : ℤ) => im.foldl (fun d2 (k : ℤ) =>
    let l2 := (p.x - q.x + i * nx) ^ 2 + (p.y - q.y + j * ny) ^ 2 + (p.z - q.z + k * nz) ^ 2
    if l2 < d2 then l2 else d2) d2) d2) ((p.x - q.x) ^ 2 + (p.y - q.y) ^ 2 + (p.z - q.z) ^ 2)

end AMPE.Bain
