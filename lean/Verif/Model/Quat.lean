import Mathlib.Analysis.SpecialFunctions.Trigonometric.Basic

/-!
# Model of the orientation arithmetic (source/fortran/quat.f)

Orientations are quaternions (`qlen = 4`), complex numbers (`qlen = 2`) or angles (`qlen = 1`).
Rotation indices are Fortran integers, 1-based; `stop` is `none`.  The `save`d tables filled on the
first call are constants here.
-/

namespace AMPE.Quat

/-- `double precision q(4)`. -/
@[ext] structure Q4 where
  q1 : ℝ
  q2 : ℝ
  q3 : ℝ
  q4 : ℝ

/-- `double precision q(2)`. -/
@[ext] structure Q2 where
  q1 : ℝ
  q2 : ℝ

/-- `quatmult4`, source/fortran/quat.f:867-894. -/
def quatmult4 (a b : Q4) : Q4 where
  q1 := a.q1 * b.q1 - a.q2 * b.q2 - a.q3 * b.q3 - a.q4 * b.q4
  q2 := a.q1 * b.q2 + a.q2 * b.q1 + a.q3 * b.q4 - a.q4 * b.q3
  q3 := a.q1 * b.q3 + a.q3 * b.q1 + a.q4 * b.q2 - a.q2 * b.q4
  q4 := a.q1 * b.q4 + a.q4 * b.q1 + a.q2 * b.q3 - a.q3 * b.q2

/-- `quatmult2`, source/fortran/quat.f:898-911. -/
def quatmult2 (a b : Q2) : Q2 where
  q1 := a.q1 * b.q1 - a.q2 * b.q2
  q2 := a.q1 * b.q2 + a.q2 * b.q1

/-- `quatsub4`, source/fortran/quat.f:837-849. -/
def quatsub4 (a b : Q4) : Q4 := ⟨a.q1 - b.q1, a.q2 - b.q2, a.q3 - b.q3, a.q4 - b.q4⟩

/-- `quatsub2`, source/fortran/quat.f:853-863. -/
def quatsub2 (a b : Q2) : Q2 := ⟨a.q1 - b.q1, a.q2 - b.q2⟩

/-- `quatmagsq4`, source/fortran/quat.f:971-980. -/
def quatmagsq4 (q : Q4) : ℝ := q.q1 * q.q1 + q.q2 * q.q2 + q.q3 * q.q3 + q.q4 * q.q4

/-- `quatmagsq2`, source/fortran/quat.f:984-993. -/
def quatmagsq2 (q : Q2) : ℝ := q.q1 * q.q1 + q.q2 * q.q2

/-- `quatmagn4`, source/fortran/quat.f:945-954. -/
noncomputable def quatmagn4 (q : Q4) : ℝ :=
  Real.sqrt (q.q1 * q.q1 + q.q2 * q.q2 + q.q3 * q.q3 + q.q4 * q.q4)

/-- `quatmagn2`, source/fortran/quat.f:958-967. -/
noncomputable def quatmagn2 (q : Q2) : ℝ := Real.sqrt (q.q1 * q.q1 + q.q2 * q.q2)

/-- The cut-off `1.d-15` of `quatmaginv4` and `quatmaginv2`. -/
noncomputable def tiny : ℝ := 1 / 10 ^ 15

/-- `quatmaginv4`, source/fortran/quat.f:997-1016. -/
noncomputable def quatmaginv4 (q : Q4) : ℝ := if quatmagn4 q < tiny then 0 else 1 / quatmagn4 q

/-- `quatmaginv2`, source/fortran/quat.f:1020-1039. -/
noncomputable def quatmaginv2 (q : Q2) : ℝ := if quatmagn2 q < tiny then 0 else 1 / quatmagn2 q

/-- `quatnorm4`, source/fortran/quat.f:1069-1083. -/
noncomputable def quatnorm4 (q : Q4) : Q4 :=
  let minv := quatmaginv4 q
  ⟨q.q1 * minv, q.q2 * minv, q.q3 * minv, q.q4 * minv⟩

/-- `quatnorm2`, source/fortran/quat.f:1087-1099. -/
noncomputable def quatnorm2 (q : Q2) : Q2 :=
  let minv := quatmaginv2 q
  ⟨q.q1 * minv, q.q2 * minv⟩

/-- The 48 argument quadruples of the `quatset` calls in `setqr`, source/fortran/quat.f:184-233, in order. -/
def rawqr4 : List (ℤ × ℤ × ℤ × ℤ) :=
  [(1, 0, 0, 0), (0, 1, 0, 0), (0, 0, 1, 0), (0, 0, 0, 1),
   (-1, 0, 0, 0), (0, -1, 0, 0), (0, 0, -1, 0), (0, 0, 0, -1),
   (1, 1, 0, 0), (1, 0, 1, 0), (1, 0, 0, 1), (0, 1, 1, 0),
   (0, 1, 0, 1), (0, 0, 1, 1), (-1, 1, 0, 0), (-1, 0, 1, 0),
   (-1, 0, 0, 1), (0, -1, 1, 0), (0, -1, 0, 1), (0, 0, -1, 1),
   (1, -1, 0, 0), (1, 0, -1, 0), (1, 0, 0, -1), (0, 1, -1, 0),
   (0, 1, 0, -1), (0, 0, 1, -1), (-1, -1, 0, 0), (-1, 0, -1, 0),
   (-1, 0, 0, -1), (0, -1, -1, 0), (0, -1, 0, -1), (0, 0, -1, -1),
   (1, 1, 1, 1), (-1, 1, 1, 1), (1, -1, 1, 1), (1, 1, -1, 1),
   (1, 1, 1, -1), (-1, -1, 1, 1), (-1, 1, -1, 1), (-1, 1, 1, -1),
   (1, -1, -1, 1), (1, -1, 1, -1), (1, 1, -1, -1), (1, -1, -1, -1),
   (-1, 1, -1, -1), (-1, -1, 1, -1), (-1, -1, -1, 1), (-1, -1, -1, -1)]

/-- `iq_qr_conj`, source/fortran/quat.f:236-283 (1-based entries). -/
def conj4 : List ℤ :=
  [1, 6, 7, 8, 5, 2, 3, 4, 21, 22, 23, 30,
   31, 32, 27, 28, 29, 24, 25, 26, 9, 10, 11, 18,
   19, 20, 15, 16, 17, 12, 13, 14, 44, 48, 43, 42,
   41, 45, 46, 47, 37, 36, 35, 33, 38, 39, 40, 34]

/-- `qr(:,iq)` after `setqr`: `quatset` (source/fortran/quat.f:701-714) stores and normalises the quadruple.  Only
used with `1 ≤ iq ≤ 48`; other indices never reach the table in the code. -/
noncomputable def qr4 (iq : ℤ) : Q4 :=
  let v := rawqr4.getD (iq - 1).toNat (0, 0, 0, 0)
  quatnorm4 ⟨v.1, v.2.1, v.2.2.1, v.2.2.2⟩

/-- The pairs given to `quatset2` in `quatfindsymm2` and `quatsymmrotate2`, source/fortran/quat.f:391-394, 489-492. -/
def rawqr2 : List (ℤ × ℤ) := [(1, 0), (0, 1), (-1, 0), (0, -1)]

/-- `iq_qr_conj` for `qlen = 2`, source/fortran/quat.f:397-400, 495-498. -/
def conj2 : List ℤ := [1, 4, 3, 2]

/-- `qr(:,iq)` for `qlen = 2`. -/
noncomputable def qr2 (iq : ℤ) : Q2 :=
  let v := rawqr2.getD (iq - 1).toNat (0, 0)
  quatnorm2 ⟨v.1, v.2⟩

/-- `qr(iq)` for `qlen = 1` in units of pi/2, source/fortran/quat.f:562-570, 662-670. -/
def rawqr1 : List ℤ := [0, 1, -1, 2, -2, 3, -3, 4, -4]

/-- `iq_qr_conj` for `qlen = 1`, source/fortran/quat.f:573-581, 673-681. -/
def conj1 : List ℤ := [1, 3, 2, 5, 4, 7, 6, 9, 8]

/-- `qr(iq)` for `qlen = 1`. -/
noncomputable def qr1 (iq : ℤ) : ℝ := (rawqr1.getD (iq - 1).toNat 0 : ℤ) * (Real.pi / 2)

/-- The index test at the head of the `quatsymmrotate` routines (source/fortran/quat.f:324-327, 503-506, 686-689),
followed by the replacement of a negative index by its conjugate (330, 509, 692).  `none` = `stop`. -/
def checkIndex (n : ℤ) (conj : List ℤ) (iq : ℤ) : Option ℤ :=
  if iq = 0 ∨ iq > n ∨ iq < -n then none
  else some (if iq < 0 then conj.getD (-iq - 1).toNat 0 else iq)

/-- `quatsymmrotate4`, source/fortran/quat.f:290-339: rotated quaternion and the possibly replaced index (passed by
reference). -/
noncomputable def quatsymmrotate4 (q : Q4) (iq : ℤ) : Option (Q4 × ℤ) :=
  (checkIndex 48 conj4 iq).map fun i => (if i = 1 then q else quatmult4 q (qr4 i), i)

/-- `quatsymmrotate2`, source/fortran/quat.f:449-518. -/
noncomputable def quatsymmrotate2 (q : Q2) (iq : ℤ) : Option (Q2 × ℤ) :=
  (checkIndex 4 conj2 iq).map fun i => (if i = 1 then q else quatmult2 q (qr2 i), i)

/-- `quatsymmrotate1`, source/fortran/quat.f:628-697. -/
noncomputable def quatsymmrotate1 (q : ℝ) (iq : ℤ) : Option (ℝ × ℤ) :=
  (checkIndex 9 conj1 iq).map fun i => (q + qr1 i, i)

/-- The index handling at the head of the `quatfindsymm` routines (source/fortran/quat.f:123-126, 407-410,
586-589): an invalid index becomes 1, a negative one its conjugate. -/
def startIndex (n : ℤ) (conj : List ℤ) (iq : ℤ) : ℤ :=
  let iq := if iq = 0 ∨ iq > n ∨ iq < -n then 1 else iq
  if iq < 0 then conj.getD (-iq - 1).toNat 0 else iq

/-- The `do nn = 1, NROTATIONS` loop shared by the three `quatfindsymm` routines (source/fortran/quat.f:139-154,
425-440, 603-617) over the remaining values of `nn`.  `cand nn` is the pair (`q2_prime`, distance)
computed for `nn`; the state is (`min_iq`, `min_q2_prime`, `min_dsq`). -/
noncomputable def searchLoop {α : Type} (cand : ℤ → α × ℝ) (thr : ℝ) (iq : ℤ) :
    List ℤ → ℤ × α × ℝ → ℤ × α × ℝ
  | [], best => best
  | nn :: rest, best =>
    if nn = iq then searchLoop cand thr iq rest best
    else
      let c := cand nn
      let best := if c.2 < best.2.2 then (nn, c.1, c.2) else best
      if c.2 ≤ thr then best else searchLoop cand thr iq rest best

/-- Body shared by the three `quatfindsymm` routines (source/fortran/quat.f:123-160, 407-444, 586-622): returned
`q2_prime` and `iq`. -/
noncomputable def search {α : Type} (cand : ℤ → α × ℝ) (thr : ℝ) (n : ℕ) (conj : List ℤ) (iq : ℤ) :
    α × ℤ :=
  let iq := startIndex n conj iq
  let c := cand iq
  if c.2 ≤ thr then (c.1, iq)
  else
    let best := searchLoop cand thr iq ((List.range n).map fun k : ℕ => (k : ℤ) + 1) (iq, c.1, c.2)
    (best.2.1, best.1)

/-- `quatdiffsq4`, source/fortran/quat.f:1171-1192. -/
noncomputable def quatdiffsq4 (q1 q2 : Q4) : ℝ :=
  quatmagsq4 (quatsub4 (quatnorm4 q2) (quatnorm4 q1))

/-- `quatdiffsq2`, source/fortran/quat.f:1203-1224. -/
noncomputable def quatdiffsq2 (q1 q2 : Q2) : ℝ :=
  quatmagsq2 (quatsub2 (quatnorm2 q2) (quatnorm2 q1))

/-- Candidate `nn` of `quatfindsymm4` (source/fortran/quat.f:127-132, 141-146; `quatrotatediffsq4`, 1243-1265). -/
noncomputable def cand4 (q1 q2 : Q4) (nn : ℤ) : Q4 × ℝ :=
  if nn = 1 then (q2, quatdiffsq4 q1 q2)
  else
    let q2p := quatmult4 q2 (qr4 nn)
    (q2p, quatdiffsq4 q1 q2p)

/-- Candidate `nn` of `quatfindsymm2` (source/fortran/quat.f:413-418; `quatrotatediffsq2`, 1271-1293). -/
noncomputable def cand2 (q1 q2 : Q2) (nn : ℤ) : Q2 × ℝ :=
  if nn = 1 then (q2, quatdiffsq2 q1 q2)
  else
    let q2p := quatmult2 q2 (qr2 nn)
    (q2p, quatdiffsq2 q1 q2p)

/-- Candidate `nn` of `quatfindsymm1` (source/fortran/quat.f:592-597; `quatrotatediffabs1`, 1299-1309). -/
noncomputable def cand1 (q1 q2 : ℝ) (nn : ℤ) : ℝ × ℝ :=
  if nn = 1 then (q2, |q2 - q1|)
  else (q2 + qr1 nn, |q2 + qr1 nn - q1|)

/-- Acceptance thresholds, source/fortran/quat.f:109-112, 384-387, 558. -/
noncomputable def thr4 : ℝ := (2 * Real.sin (Real.pi / 16)) * (2 * Real.sin (Real.pi / 16))
@[inherit_doc thr4]
noncomputable def thr2 : ℝ := (2 * Real.sin (Real.pi / 8)) * (2 * Real.sin (Real.pi / 8))
@[inherit_doc thr4]
noncomputable def thr1 : ℝ := 0.25 * Real.pi

/-- `quatfindsymm4`, source/fortran/quat.f:73-161. -/
noncomputable def quatfindsymm4 (q1 q2 : Q4) (iq : ℤ) : Q4 × ℤ := search (cand4 q1 q2) thr4 48 conj4 iq

/-- `quatfindsymm2`, source/fortran/quat.f:343-445. -/
noncomputable def quatfindsymm2 (q1 q2 : Q2) (iq : ℤ) : Q2 × ℤ := search (cand2 q1 q2) thr2 4 conj2 iq

/-- `quatfindsymm1`, source/fortran/quat.f:522-624. -/
noncomputable def quatfindsymm1 (q1 q2 : ℝ) (iq : ℤ) : ℝ × ℤ := search (cand1 q1 q2) thr1 9 conj1 iq

/-- `quatrotationmatrix`, source/fortran/quat.f:1315-1338; entry `(i,j)` is 0-based here. -/
def quatrotationmatrix (q : Q4) : Fin 3 → Fin 3 → ℝ :=
  ![![q.q1 * q.q1 + q.q2 * q.q2 - q.q3 * q.q3 - q.q4 * q.q4,
      2 * (q.q2 * q.q3 - q.q1 * q.q4),
      2 * (q.q1 * q.q3 + q.q2 * q.q4)],
    ![2 * (q.q1 * q.q4 + q.q2 * q.q3),
      q.q1 * q.q1 - q.q2 * q.q2 + q.q3 * q.q3 - q.q4 * q.q4,
      2 * (q.q3 * q.q4 - q.q1 * q.q2)],
    ![2 * (q.q2 * q.q4 - q.q1 * q.q3),
      2 * (q.q1 * q.q2 + q.q3 * q.q4),
      q.q1 * q.q1 - q.q2 * q.q2 - q.q3 * q.q3 + q.q4 * q.q4]]

/-- `derivquatrotationmatrixdq`, source/fortran/quat.f:1344-1402: `m` is the component differentiated by; entries
are 0-based.  Entries (3,2,2) and (3,1,3) are copied as they stand in the code (lines 1370 and 1379). -/
def derivquatrotationmatrixdq (q : Q4) (m : Fin 4) : Fin 3 → Fin 3 → ℝ :=
  match m with
  | 0 => ![![2 * q.q1, -2 * q.q4, 2 * q.q3], ![2 * q.q4, 2 * q.q1, -2 * q.q2],
           ![-2 * q.q3, 2 * q.q2, 2 * q.q1]]
  | 1 => ![![2 * q.q2, 2 * q.q3, 2 * q.q4], ![2 * q.q3, -2 * q.q2, -2 * q.q1],
           ![2 * q.q4, 2 * q.q2, -2 * q.q2]]
  | 2 => ![![-2 * q.q3, 2 * q.q2, 2 * q.q1], ![2 * q.q2, 2 * q.q3, 2 * q.q4],
           ![2 * q.q1, 2 * q.q4, -2 * q.q3]]
  | 3 => ![![-2 * q.q4, -2 * q.q1, 2 * q.q2], ![2 * q.q1, -2 * q.q4, 2 * q.q3],
           ![2 * q.q2, 2 * q.q3, 2 * q.q4]]

/-- `complexrotationmatrix`, source/fortran/quat.f:1410-1432. -/
def complexrotationmatrix (q : Q2) : Fin 3 → Fin 3 → ℝ :=
  ![![q.q1, -q.q2, 0], ![q.q2, q.q1, 0], ![0, 0, 1]]

/-- `rotationtensorijkl`, source/fortran/quat.f:1479-1493. -/
def rotationtensorijkl (R : Fin 3 → Fin 3 → ℝ) (i j k l : Fin 3) : ℝ :=
  R i 0 * R j 0 * R k 0 * R l 0 + R i 1 * R j 1 * R k 1 * R l 1 + R i 2 * R j 2 * R k 2 * R l 2

/-- `eval_grad_normi`, source/fortran/quat.f:1497-1537.  The power `x ** (-0.5d0)` is written `1 / sqrt x`. -/
noncomputable def evalGradNormi (floorType : Char) (gradNorm2 floorGradNorm2 maxGradNormi : ℝ) :
    Option ℝ :=
  if floorType = 'm' then
    if gradNorm2 > floorGradNorm2 then some (1 / Real.sqrt gradNorm2) else some maxGradNormi
  else if floorType = 't' then
    let gng2 := gradNorm2 * maxGradNormi * maxGradNormi
    if gng2 > 0.01 then
      let gradNorm := Real.sqrt gradNorm2
      some (Real.tanh (maxGradNormi * gradNorm) / gradNorm)
    else some (maxGradNormi * (1 - gng2 * (5 - 2 * gng2) / 15))
  else if floorType = 's' then some (1 / Real.sqrt (gradNorm2 + floorGradNorm2))
  else none

end AMPE.Quat
