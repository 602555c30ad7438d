import Verif.Model.QuatFlow
import Verif.Props.QuatNearest
import Verif.Props.OrientSolve

/-! # C76: the orientation rate does not depend on which equivalent orientation is stored -/

namespace AMPE.QuatFlow.Props

open AMPE.QuatFlow AMPE.Flux AMPE.Tagging AMPE.Quat AMPE.Quat.Props AMPE.OrientSolve AMPE.OrientSolve.Props

/-! ## Linear isometries -/

/-- A map of orientation space that is linear and preserves lengths. -/
structure LinIso {n : ℕ} (f : QVec n → QVec n) : Prop where
  add : ∀ a b, f (a + b) = f a + f b
  smul : ∀ (c : ℝ) a, f (c • a) = c • f a
  dot : ∀ a b, dot (f a) (f b) = dot a b

theorem LinIso.sub {n : ℕ} {f : QVec n → QVec n} (h : LinIso f) (a b : QVec n) : f (a - b) = f a - f b := by
  rw [sub_eq_add_neg, h.add, show -b = (-1 : ℝ) • b by simp, h.smul]; simp [sub_eq_add_neg]

theorem LinIso.id {n : ℕ} : LinIso (id : QVec n → QVec n) := ⟨fun _ _ => rfl, fun _ _ => rfl, fun _ _ => rfl⟩

/-- Two settings of the rotations related by a change of the stored copies: `γ i j` is the change at cell `(i,j)`. -/
structure Related {n : ℕ} (R R' : RotOps n) (γ : ℤ → ℤ → QVec n → QVec n) : Prop where
  x : ∀ i j v, R'.x i j (γ (i - 1) j v) = γ i j (R.x i j v)
  xi : ∀ i j v, R'.xi i j (γ i j v) = γ (i - 1) j (R.xi i j v)
  y : ∀ i j v, R'.y i j (γ i (j - 1) v) = γ i j (R.y i j v)
  yi : ∀ i j v, R'.yi i j (γ i j v) = γ i (j - 1) (R.yi i j v)

section covariance

variable {n : ℕ} {R R' : RotOps n} {γ : ℤ → ℤ → QVec n → QVec n} (hγ : ∀ i j, LinIso (γ i j)) (hR : Related R R' γ)

include hγ hR

theorem diffX_cov (q : QField n) (i j : ℤ) :
    qdiffX R'.x (fun i j => γ i j (q i j)) i j = γ i j (qdiffX R.x q i j) := by
  simp only [qdiffX]; rw [hR.x, (hγ i j).sub]

theorem diffY_cov (q : QField n) (i j : ℤ) :
    qdiffY R'.y (fun i j => γ i j (q i j)) i j = γ i j (qdiffY R.y q i j) := by
  simp only [qdiffY]; rw [hR.y, (hγ i j).sub]

theorem gYX_cov (hy : ℝ) (dY : QField n) (i j : ℤ) :
    gYX hy R' (fun i j => γ i j (dY i j)) i j = γ i j (gYX hy R dY i j) := by
  have e : gYX hy R dY i j = (0.25 * (1 / hy)) • (R.x i j (R.yi (i - 1) (j + 1) (dY (i - 1) (j + 1)) + dY (i - 1) j)
      + R.yi i (j + 1) (dY i (j + 1)) + dY i j) := by funext m; simp [gYX]
  have e' : gYX hy R' (fun i j => γ i j (dY i j)) i j = (0.25 * (1 / hy)) • (R'.x i j (R'.yi (i - 1) (j + 1)
      (γ (i - 1) (j + 1) (dY (i - 1) (j + 1))) + γ (i - 1) j (dY (i - 1) j))
      + R'.yi i (j + 1) (γ i (j + 1) (dY i (j + 1))) + γ i j (dY i j)) := by funext m; simp [gYX]
  rw [e, e', hR.yi, hR.yi, show (j + 1 - 1 : ℤ) = j by ring, ← (hγ (i - 1) j).add, hR.x, ← (hγ i j).add, ← (hγ i j).add,
    ← (hγ i j).smul]

theorem gXY_cov (hx : ℝ) (dX : QField n) (i j : ℤ) :
    gXY hx R' (fun i j => γ i j (dX i j)) i j = γ i j (gXY hx R dX i j) := by
  have e : gXY hx R dX i j = (0.25 * (1 / hx)) • (R.y i j (R.xi (i + 1) (j - 1) (dX (i + 1) (j - 1)) + dX i (j - 1))
      + R.xi (i + 1) j (dX (i + 1) j) + dX i j) := by funext m; simp [gXY]
  have e' : gXY hx R' (fun i j => γ i j (dX i j)) i j = (0.25 * (1 / hx)) • (R'.y i j (R'.xi (i + 1) (j - 1)
      (γ (i + 1) (j - 1) (dX (i + 1) (j - 1))) + γ i (j - 1) (dX i (j - 1)))
      + R'.xi (i + 1) j (γ (i + 1) j (dX (i + 1) j)) + γ i j (dX i j)) := by funext m; simp [gXY]
  rw [e, e', hR.xi, hR.xi, show (i + 1 - 1 : ℤ) = i by ring, ← (hγ i (j - 1)).add, hR.y, ← (hγ i j).add, ← (hγ i j).add,
    ← (hγ i j).smul]

theorem gIsoXX_cov (hx : ℝ) (dX : QField n) (i j : ℤ) :
    gIsoXX hx R' (fun i j => γ i j (dX i j)) i j = γ i j (gIsoXX hx R dX i j) := by
  have e : gIsoXX hx R dX i j = (1 / hx / 12) • ((10 : ℝ) • dX i j + R.y i j (dX i (j - 1))
      + R.yi i (j + 1) (dX i (j + 1))) := by funext m; simp [gIsoXX]
  have e' : gIsoXX hx R' (fun i j => γ i j (dX i j)) i j = (1 / hx / 12) • ((10 : ℝ) • γ i j (dX i j)
      + R'.y i j (γ i (j - 1) (dX i (j - 1))) + R'.yi i (j + 1) (γ i (j + 1) (dX i (j + 1)))) := by
    funext m; simp [gIsoXX]
  rw [e, e', hR.y, hR.yi, show (j + 1 - 1 : ℤ) = j by ring, ← (hγ i j).smul, ← (hγ i j).add, ← (hγ i j).add,
    ← (hγ i j).smul]

theorem gIsoYY_cov (hy : ℝ) (dY : QField n) (i j : ℤ) :
    gIsoYY hy R' (fun i j => γ i j (dY i j)) i j = γ i j (gIsoYY hy R dY i j) := by
  have e : gIsoYY hy R dY i j = (1 / hy / 12) • ((10 : ℝ) • dY i j + R.x i j (dY (i - 1) j)
      + R.xi (i + 1) j (dY (i + 1) j)) := by funext m; simp [gIsoYY]
  have e' : gIsoYY hy R' (fun i j => γ i j (dY i j)) i j = (1 / hy / 12) • ((10 : ℝ) • γ i j (dY i j)
      + R'.x i j (γ (i - 1) j (dY (i - 1) j)) + R'.xi (i + 1) j (γ (i + 1) j (dY (i + 1) j))) := by
    funext m; simp [gIsoYY]
  rw [e, e', hR.x, hR.xi, show (i + 1 - 1 : ℤ) = i by ring, ← (hγ i j).smul, ← (hγ i j).add, ← (hγ i j).add,
    ← (hγ i j).smul]

theorem grad_cov (hn : 1 < n) (iso : Bool) (hx hy : ℝ) (dX dY nX nY nX' nY' : QField n) (i j : ℤ) :
    (sideGrad iso hx hy R' (fun i j => γ i j (dX i j)) (fun i j => γ i j (dY i j)) nX' nY').xx i j
        = γ i j ((sideGrad iso hx hy R dX dY nX nY).xx i j) ∧
    (sideGrad iso hx hy R' (fun i j => γ i j (dX i j)) (fun i j => γ i j (dY i j)) nX' nY').yx i j
        = γ i j ((sideGrad iso hx hy R dX dY nX nY).yx i j) ∧
    (sideGrad iso hx hy R' (fun i j => γ i j (dX i j)) (fun i j => γ i j (dY i j)) nX' nY').xy i j
        = γ i j ((sideGrad iso hx hy R dX dY nX nY).xy i j) ∧
    (sideGrad iso hx hy R' (fun i j => γ i j (dX i j)) (fun i j => γ i j (dY i j)) nX' nY').yy i j
        = γ i j ((sideGrad iso hx hy R dX dY nX nY).yy i j) := by
  refine ⟨?_, gYX_cov hγ hR hy dY i j, gXY_cov hγ hR hx dX i j, ?_⟩
  · cases iso
    · exact ((hγ i j).smul (1 / hx) (dX i j)).symm
    · simp only [sideGrad, if_true, if_pos hn]; exact gIsoXX_cov hγ hR hx dX i j
  · cases iso
    · exact ((hγ i j).smul (1 / hy) (dY i j)).symm
    · simp only [sideGrad, if_true, if_pos hn]; exact gIsoYY_cov hγ hR hy dY i j

omit hR in
theorem faceCoef_cov (P : CoefParams) (a b s t : ℝ) (gx gy : QVec n) (i j : ℤ) :
    faceCoef P a b s t (γ i j gx) (γ i j gy) = faceCoef P a b s t gx gy := by
  have e : ∀ v : QVec n, acc (fun m => v m ^ 2) = dot v v := fun v => by
    rw [acc_eq]; exact Finset.sum_congr rfl fun m _ => by ring
  simp only [faceCoef, e, (hγ i j).dot]

omit hR in
theorem lambda_cov (hx hy : ℝ) (l r d u q : QVec n) (i j : ℤ) :
    lambdaFlux hx hy (γ i j l) (γ i j r) (γ i j d) (γ i j u) (γ i j q) = lambdaFlux hx hy l r d u q := by
  have e : ∀ v : QVec n, acc (fun m => v m ^ 2) = dot v v := fun v => by
    rw [acc_eq]; exact Finset.sum_congr rfl fun m _ => by ring
  have fold : ∀ (t : Fin n → ℝ) (L : List (Fin n)) (s : ℝ), L.foldl (fun s m => s - t m) s = s - (L.map t).sum := by
    intro t L
    induction L with
    | nil => simp
    | cons c L ih => intro s; rw [List.foldl_cons, ih]; simp only [List.map_cons, List.sum_cons]; ring
  have main : ∀ l r d u q : QVec n, (List.finRange n).foldl (fun s m =>
      s - q m * ((r m - l m) * (0.5 / hx) + (u m - d m) * (0.5 / hy))) 0
      = -(dot q ((0.5 / hx) • (r - l) + (0.5 / hy) • (u - d))) := by
    intro l r d u q
    rw [fold fun m => q m * ((r m - l m) * (0.5 / hx) + (u m - d m) * (0.5 / hy)), ← List.ofFn_eq_map, List.sum_ofFn, zero_sub]
    congr 1
    refine Finset.sum_congr rfl fun m _ => ?_
    simp only [Pi.add_apply, Pi.smul_apply, Pi.sub_apply, smul_eq_mul]; ring
  unfold lambdaFlux
  simp only [main, e, (hγ i j).dot, ← (hγ i j).sub, ← (hγ i j).smul, ← (hγ i j).add]

omit hR in
theorem projOp_cov (mob hx hy : ℝ) (l r d u q : QVec n) (lam : ℝ) (i j : ℤ) :
    projOp mob hx hy (γ i j l) (γ i j r) (γ i j d) (γ i j u) (γ i j q) lam = γ i j (projOp mob hx hy l r d u q lam) := by
  have main : ∀ l r d u q : QVec n, projOp mob hx hy l r d u q lam
      = (-mob) • ((1 / hx) • (r - l) + (1 / hy) • (u - d) + (2 * lam) • q) := by
    intro l r d u q
    funext m
    simp only [projOp, Pi.add_apply, Pi.smul_apply, Pi.sub_apply, smul_eq_mul]; ring
  rw [main, main]
  simp only [(hγ i j).dot, ← (hγ i j).sub, ← (hγ i j).smul, ← (hγ i j).add]

/-- The rate of a cell changes with the stored copy of that cell only. -/
theorem cellRate_cov (hn : n ≠ 1) (mob hx hy : ℝ) (g g' : SideGrad n) (cX cY : ℤ → ℤ → ℝ) (q : QField n)
    (hxx : ∀ i j, g'.xx i j = γ i j (g.xx i j)) (hyy : ∀ i j, g'.yy i j = γ i j (g.yy i j)) (i j : ℤ) :
    cellRate mob hx hy R' g' cX cY (fun i j => γ i j (q i j)) i j = (cellRate mob hx hy R g cX cY q i j).map (γ i j) := by
  have hf : ∀ (c : ℝ) (v : QVec n) a b, flux c (γ a b v) = γ a b (flux c v) := fun c v a b => ((hγ a b).smul c v).symm
  simp only [cellRate, if_neg hn, hxx, hyy, hf, hR.xi, hR.yi, show (j + 1 - 1 : ℤ) = j by ring,
    show (i + 1 - 1 : ℤ) = i by ring]
  rw [lambda_cov hγ, Option.map_map]
  congr 1
  funext lam
  exact projOp_cov hγ _ _ _ _ _ _ _ _ _ i j

end covariance

theorem forGrad_of_ne {n : ℕ} (hn : 1 < n) (R : RotOps n) : R.forGrad = R := by simp [RotOps.forGrad, hn]

/-- Covariance of the whole evaluation, for related rotations. -/
theorem rhs_cov {n : ℕ} (hn : 1 < n) (γ : ℤ → ℤ → QVec n → QVec n) (hγ : ∀ i j, LinIso (γ i j)) (kx ky kx' ky' : ℤ → ℤ → ℤ)
    (hR : Related (RotOps.ofIndices n kx ky) (RotOps.ofIndices n kx' ky') γ) (iso : Bool) (P : CoefParams) (G : Grid)
    (q : QField n) (i j : ℤ) :
    evaluateQuatRHS true true iso P G kx' ky' (fun i j => γ i j (q i j)) i j
      = (evaluateQuatRHS true true iso P G kx ky q i j).map (γ i j) := by
  have hdx : qdiffX (RotOps.ofIndices n kx' ky').x (fun i j => γ i j (q i j))
      = fun i j => γ i j (qdiffX (RotOps.ofIndices n kx ky).x q i j) := by
    funext a b; exact diffX_cov hγ hR q a b
  have hdy : qdiffY (RotOps.ofIndices n kx' ky').y (fun i j => γ i j (q i j))
      = fun i j => γ i j (qdiffY (RotOps.ofIndices n kx ky).y q i j) := by
    funext a b; exact diffY_cov hγ hR q a b
  simp only [evaluateQuatRHS, if_true, Bool.and_self, Bool.not_true, Bool.and_false, Bool.false_eq_true, if_false,
    forGrad_of_ne hn, hdx, hdy]
  have hg := fun a b => grad_cov hγ hR hn iso G.hx G.hy (qdiffX (RotOps.ofIndices n kx ky).x q)
    (qdiffY (RotOps.ofIndices n kx ky).y q) (qdiffX (RotOps.plain n).x q) (qdiffY (RotOps.plain n).y q)
    (qdiffX (RotOps.plain n).x fun i j => γ i j (q i j)) (qdiffY (RotOps.plain n).y fun i j => γ i j (q i j)) a b
  generalize sideGrad iso G.hx G.hy (RotOps.ofIndices n kx' ky')
      (fun i j => γ i j (qdiffX (RotOps.ofIndices n kx ky).x q i j))
      (fun i j => γ i j (qdiffY (RotOps.ofIndices n kx ky).y q i j))
      (qdiffX (RotOps.plain n).x fun i j => γ i j (q i j)) (qdiffY (RotOps.plain n).y fun i j => γ i j (q i j)) = g' at hg ⊢
  generalize sideGrad iso G.hx G.hy (RotOps.ofIndices n kx ky) (qdiffX (RotOps.ofIndices n kx ky).x q)
    (qdiffY (RotOps.ofIndices n kx ky).y q) (qdiffX (RotOps.plain n).x q) (qdiffY (RotOps.plain n).y q) = g at hg ⊢
  have hcx : ∀ a b, coefX P G g' a b = coefX P G g a b := by
    intro a b
    unfold coefX
    rw [(hg a b).1, (hg a b).2.1, faceCoef_cov hγ]
  have hcy : ∀ a b, coefY P G g' a b = coefY P G g a b := by
    intro a b
    unfold coefY
    rw [(hg a b).2.2.1, (hg a b).2.2.2, faceCoef_cov hγ]
  simp only [hcx, hcy]
  cases coefX P G g i j with
  | none => rfl
  | some c1 =>
  cases coefX P G g (i + 1) j with
  | none => rfl
  | some c2 =>
  cases coefY P G g i j with
  | none => rfl
  | some c3 =>
  cases coefY P G g i (j + 1) with
  | none => rfl
  | some c4 =>
  simp only [Option.bind_eq_bind, Option.bind_some]
  rw [cellRate_cov hγ hR (by omega) _ _ _ g g' _ _ q (fun a b => (hg a b).1) (fun a b => (hg a b).2.2.2)]
  cases cellRate (G.mob i j) G.hx G.hy (RotOps.ofIndices n kx ky) g
    (fun a _ => if a = i then c1 else c2) (fun _ b => if b = j then c3 else c4) q i j <;> rfl

/-! ## Symmetry operations -/

/-- Specification: the orientation changes that leave a cubic crystal as it is: multiplication from the right by a unit
quaternion whose rotation maps the cube to itself. -/
def Sym4 (f : QVec 4 → QVec 4) : Prop :=
  ∃ g : Q4, lenSq g = 1 ∧ MapsCubeToItself g ∧ ∀ v, f v = ofQ4 (quatmult4 (toQ4 v) g)

/-- Specification: the same for the two-component orientations of the plane: quarter turns. -/
def Sym2 (f : QVec 2 → QVec 2) : Prop :=
  ∃ a b : ℤ, a ^ 2 + b ^ 2 = 1 ∧ ∀ v, f v = ![a * v 0 - b * v 1, b * v 0 + a * v 1]

/-- Specification: squared distance. -/
def dsq {n : ℕ} (a b : QVec n) : ℝ := ∑ m, (a m - b m) ^ 2

/-- Specification: there is only one copy of `q2` nearest to `q1`. -/
def UniqueNearest {n : ℕ} (Sym : (QVec n → QVec n) → Prop) (q1 q2 : QVec n) : Prop :=
  ∀ f f', Sym f → Sym f' → (∀ s, Sym s → dsq q1 (f q2) ≤ dsq q1 (s q2)) →
    (∀ s, Sym s → dsq q1 (f' q2) ≤ dsq q1 (s q2)) → f q2 = f' q2

/-- What is used of the table of rotations. -/
structure Table (n : ℕ) (N : ℤ) (Sym : (QVec n → QVec n) → Prop) : Prop where
  sym : ∀ k, 1 ≤ k → k ≤ N → Sym (rotBy k)
  all : ∀ f, Sym f → ∃ k, 1 ≤ k ∧ k ≤ N ∧ f = rotBy k
  iso : ∀ f, Sym f → LinIso f
  comp : ∀ f g, Sym f → Sym g → Sym (f ∘ g)
  back : ∀ k, 1 ≤ k → k ≤ N → Sym (rotBy (-1 * k)) ∧ (∀ v : QVec n, rotBy (-1 * k) (rotBy k v) = v) ∧
    ∀ v : QVec n, rotBy k (rotBy (-1 * k) v) = v
  free : ∀ f g, Sym f → Sym g → ∀ v : QVec n, dot v v = 1 → f v = g v → f = g
  search : ∀ (q1 q2 : QVec n) iq, dot q1 q1 = 1 → dot q2 q2 = 1 → ∃ k p, quatfindsymm n q1 q2 iq = some (p, k) ∧
    1 ≤ k ∧ k ≤ N ∧ ∀ s, Sym s → dsq q1 (rotBy k q2) ≤ dsq q1 (s q2)

theorem LinIso.dsq {n : ℕ} {f : QVec n → QVec n} (h : LinIso f) (a b : QVec n) : dsq (f a) (f b) = dsq a b := by
  have e : ∀ a b : QVec n, Props.dsq a b = OrientSolve.Props.dot (a - b) (a - b) := fun a b =>
    Finset.sum_congr rfl fun m _ => by simp only [Pi.sub_apply]; ring
  rw [e, e, ← h.sub, h.dot]

section tables

variable {n : ℕ} {N : ℤ} {Sym : (QVec n → QVec n) → Prop} (T : Table n N Sym)

include T

theorem Table.inverse (f : QVec n → QVec n) (hf : Sym f) : ∃ f', Sym f' ∧ (∀ v, f' (f v) = v) ∧ ∀ v, f (f' v) = v := by
  obtain ⟨k, k1, k2, rfl⟩ := T.all f hf
  exact ⟨_, T.back k k1 k2⟩

/-- The rotation found for changed copies is the changed rotation. -/
theorem Table.side (q1 q2 : QVec n) (u1 : dot q1 q1 = 1) (u2 : dot q2 q2 = 1) (f1 f2 : QVec n → QVec n) (h1 : Sym f1)
    (h2 : Sym f2) (hu : UniqueNearest Sym q1 q2) (iq iq' k k' : ℤ) (p p' : QVec n)
    (hk : quatfindsymm n q1 q2 iq = some (p, k)) (hk' : quatfindsymm n (f1 q1) (f2 q2) iq' = some (p', k')) :
    (1 ≤ k ∧ k ≤ N) ∧ (1 ≤ k' ∧ k' ≤ N) ∧ ∀ v : QVec n, rotBy k' (f2 v) = f1 (rotBy k v) := by
  obtain ⟨l, r, e, l1, l2, hmin⟩ := T.search q1 q2 iq u1 u2
  obtain ⟨l', r', e', l1', l2', hmin'⟩ := T.search (f1 q1) (f2 q2) iq' (by rw [(T.iso _ h1).dot, u1])
    (by rw [(T.iso _ h2).dot, u2])
  rw [hk] at e
  rw [hk'] at e'
  simp only [Option.some.injEq, Prod.mk.injEq] at e e'
  obtain ⟨-, rfl⟩ := e
  obtain ⟨-, rfl⟩ := e'
  refine ⟨⟨l1, l2⟩, ⟨l1', l2'⟩, ?_⟩
  obtain ⟨f1i, s1, i1, j1⟩ := T.inverse f1 h1
  obtain ⟨f2i, s2, i2, j2⟩ := T.inverse f2 h2
  have hs : Sym (f1i ∘ (rotBy k' ∘ f2)) := T.comp _ _ s1 (T.comp _ _ (T.sym _ l1' l2') h2)
  have hnear := hu (rotBy k) (f1i ∘ (rotBy k' ∘ f2)) (T.sym _ l1 l2) hs hmin (by
    intro s hsym
    have a := hmin' (f1 ∘ (s ∘ f2i)) (T.comp _ _ h1 (T.comp _ _ hsym s2))
    simp only [Function.comp_apply, i2] at a ⊢
    rw [(T.iso _ h1).dsq] at a
    rw [← (T.iso _ h1).dsq, j1]
    exact a)
  have hfun := T.free _ _ (T.sym _ l1 l2) hs q2 u2 hnear
  intro v
  rw [hfun]
  simp only [Function.comp_apply, j1]

/-- The index arrays before and after a change of copies give related rotations. -/
theorem Table.related (q : QField n) (hq : ∀ i j, dot (q i j) (q i j) = 1) (γ : ℤ → ℤ → QVec n → QVec n)
    (hγ : ∀ i j, Sym (γ i j)) (ux : ∀ i j, UniqueNearest Sym (q i j) (q (i - 1) j))
    (uy : ∀ i j, UniqueNearest Sym (q i j) (q i (j - 1))) (ox oy ox' oy' : ℤ → ℤ → ℤ) :
    Related (RotOps.ofIndices n (symmRotX q ox) (symmRotY q oy))
      (RotOps.ofIndices n (symmRotX (fun i j => γ i j (q i j)) ox') (symmRotY (fun i j => γ i j (q i j)) oy')) γ := by
  have hx : ∀ i j, (1 ≤ symmRotX q ox i j ∧ symmRotX q ox i j ≤ N) ∧
      (1 ≤ symmRotX (fun i j => γ i j (q i j)) ox' i j ∧ symmRotX (fun i j => γ i j (q i j)) ox' i j ≤ N) ∧
      ∀ v : QVec n, rotBy (symmRotX (fun i j => γ i j (q i j)) ox' i j) (γ (i - 1) j v)
        = γ i j (rotBy (symmRotX q ox i j) v) := by
    intro i j
    obtain ⟨k, p, e, -⟩ := T.search (q i j) (q (i - 1) j) (ox i j) (hq _ _) (hq _ _)
    obtain ⟨k', p', e', -⟩ := T.search (γ i j (q i j)) (γ (i - 1) j (q (i - 1) j)) (ox' i j)
      (by rw [(T.iso _ (hγ i j)).dot, hq]) (by rw [(T.iso _ (hγ (i - 1) j)).dot, hq])
    have := T.side _ _ (hq _ _) (hq _ _) _ _ (hγ i j) (hγ (i - 1) j) (ux i j) _ _ _ _ _ _ e e'
    simpa only [symmRotX, e, e', Option.map_some, Option.getD_some] using this
  have hy : ∀ i j, (1 ≤ symmRotY q oy i j ∧ symmRotY q oy i j ≤ N) ∧
      (1 ≤ symmRotY (fun i j => γ i j (q i j)) oy' i j ∧ symmRotY (fun i j => γ i j (q i j)) oy' i j ≤ N) ∧
      ∀ v : QVec n, rotBy (symmRotY (fun i j => γ i j (q i j)) oy' i j) (γ i (j - 1) v)
        = γ i j (rotBy (symmRotY q oy i j) v) := by
    intro i j
    obtain ⟨k, p, e, -⟩ := T.search (q i j) (q i (j - 1)) (oy i j) (hq _ _) (hq _ _)
    obtain ⟨k', p', e', -⟩ := T.search (γ i j (q i j)) (γ i (j - 1) (q i (j - 1))) (oy' i j)
      (by rw [(T.iso _ (hγ i j)).dot, hq]) (by rw [(T.iso _ (hγ i (j - 1))).dot, hq])
    have := T.side _ _ (hq _ _) (hq _ _) _ _ (hγ i j) (hγ i (j - 1)) (uy i j) _ _ _ _ _ _ e e'
    simpa only [symmRotY, e, e', Option.map_some, Option.getD_some] using this
  refine ⟨fun i j v => (hx i j).2.2 v, fun i j v => ?_, fun i j v => (hy i j).2.2 v, fun i j v => ?_⟩
  · obtain ⟨⟨a1, a2⟩, ⟨b1, b2⟩, h⟩ := hx i j
    simp only [RotOps.ofIndices]
    have := h (rotBy (-1 * symmRotX q ox i j) v)
    rw [(T.back _ a1 a2).2.2] at this
    rw [← this, (T.back _ b1 b2).2.1]
  · obtain ⟨⟨a1, a2⟩, ⟨b1, b2⟩, h⟩ := hy i j
    simp only [RotOps.ofIndices]
    have := h (rotBy (-1 * symmRotY q oy i j) v)
    rw [(T.back _ a1 a2).2.2] at this
    rw [← this, (T.back _ b1 b2).2.1]

end tables

/-! ### Quaternions -/

theorem toQ4_ofQ4 (q : Q4) : toQ4 (ofQ4 q) = q := by ext <;> simp [toQ4, ofQ4]

theorem ofQ4_toQ4 (v : QVec 4) : ofQ4 (toQ4 v) = v := by
  funext m; fin_cases m <;> simp [toQ4, ofQ4]

theorem rotBy4 (k : ℤ) (h1 : 1 ≤ k) (h2 : k ≤ 48) (v : QVec 4) : rotBy k v = ofQ4 (quatmult4 (toQ4 v) (qr4 k)) := by
  simp [rotBy, quatsymmrotate, rotate4_pos h1 h2]

theorem rotBy4_neg (k : ℤ) (h1 : 1 ≤ k) (h2 : k ≤ 48) (v : QVec 4) :
    rotBy (-1 * k) v = ofQ4 (quatmult4 (toQ4 v) (qr4 (conj4.getD (k - 1).toNat 0))) := by
  rw [show (-1 * k : ℤ) = -k by ring]
  simp [rotBy, quatsymmrotate, rotate4_neg h1 h2]

theorem dot4 (a b : QVec 4) : dot a b = inner4 (toQ4 a) (toQ4 b) := by
  simp [dot, Fin.sum_univ_four, inner4, toQ4]

theorem dot4_magsq (a : QVec 4) : dot a a = quatmagsq4 (toQ4 a) := by rw [dot4]; simp [inner4, quatmagsq4]

theorem sym4_iff (f : QVec 4 → QVec 4) :
    Sym4 f ↔ ∃ k, 1 ≤ k ∧ k ≤ 48 ∧ ∀ v, f v = ofQ4 (quatmult4 (toQ4 v) (qr4 k)) := by
  constructor
  · rintro ⟨g, hu, hc, hf⟩
    obtain ⟨k, k1, k2, rfl⟩ := c14_table_complete g hu hc
    exact ⟨k, k1, k2, hf⟩
  · rintro ⟨k, k1, k2, hf⟩
    exact ⟨qr4 k, (c14_table_sound k k1 k2).1, (c14_table_sound k k1 k2).2, hf⟩

theorem unit_norm4 (q : Q4) (h : quatmagsq4 q = 1) : quatnorm4 q = q := by
  have hm : quatmagn4 q = 1 := by rw [magn4_eq, h, Real.sqrt_one]
  have : quatmaginv4 q = 1 := by
    unfold quatmaginv4
    rw [hm, if_neg (by unfold tiny; norm_num)]; norm_num
  ext <;> simp [quatnorm4, this]

theorem dsq4 (a b : QVec 4) (ha : dot a a = 1) (hb : dot b b = 1) : dsq a b = quatdiffsq4 (toQ4 a) (toQ4 b) := by
  rw [dot4_magsq] at ha hb
  rw [quatdiffsq4, unit_norm4 _ ha, unit_norm4 _ hb]
  simp [dsq, Fin.sum_univ_four, quatmagsq4, quatsub4, toQ4]; ring

theorem table4 : Table 4 48 Sym4 where
  sym k h1 h2 := (sym4_iff _).mpr ⟨k, h1, h2, rotBy4 k h1 h2⟩
  all f hf := by
    obtain ⟨k, k1, k2, h⟩ := (sym4_iff f).mp hf
    exact ⟨k, k1, k2, funext fun v => by rw [h, rotBy4 k k1 k2]⟩
  iso f hf := by
    obtain ⟨g, hu, -, h⟩ := hf
    have hu' : quatmagsq4 g = 1 := by rw [← lenSq_eq]; exact hu
    refine ⟨fun a b => ?_, fun c a => ?_, fun a b => ?_⟩
    · rw [h, h, h]; funext m; fin_cases m <;> simp [ofQ4, toQ4, quatmult4] <;> ring
    · rw [h, h]; funext m; fin_cases m <;> simp [ofQ4, toQ4, quatmult4] <;> ring
    · rw [h, h, dot4, dot4, toQ4_ofQ4, toQ4_ofQ4]
      have : inner4 (quatmult4 (toQ4 a) g) (quatmult4 (toQ4 b) g) = inner4 (toQ4 a) (toQ4 b) * quatmagsq4 g := by
        simp only [inner4, quatmult4, quatmagsq4]; ring
      rw [this, hu', mul_one]
  comp f g hf hg := by
    obtain ⟨k, k1, k2, h⟩ := (sym4_iff f).mp hf
    obtain ⟨l, l1, l2, h'⟩ := (sym4_iff g).mp hg
    obtain ⟨m, m1, m2, e⟩ := qr4_closed l1 l2 k1 k2
    exact (sym4_iff _).mpr ⟨m, m1, m2, fun v => by
      rw [Function.comp_apply, h, h', toQ4_ofQ4, mult4_assoc, e]⟩
  back k h1 h2 := by
    obtain ⟨⟨r1, r2⟩, e1, e2⟩ := conj4_spec h1 h2
    refine ⟨(sym4_iff _).mpr ⟨_, r1, r2, rotBy4_neg k h1 h2⟩, fun v => ?_, fun v => ?_⟩
    · rw [rotBy4_neg k h1 h2, rotBy4 k h1 h2, toQ4_ofQ4, mult4_assoc, e1, mult4_one, ofQ4_toQ4]
    · rw [rotBy4_neg k h1 h2, rotBy4 k h1 h2, toQ4_ofQ4, mult4_assoc, e2, mult4_one, ofQ4_toQ4]
  free f g hf hg v hv e := by
    obtain ⟨a, -, -, h⟩ := hf
    obtain ⟨b, -, -, h'⟩ := hg
    rw [h, h'] at e
    have e2 : quatmult4 (toQ4 v) a = quatmult4 (toQ4 v) b := by
      have := congrArg toQ4 e
      rwa [toQ4_ofQ4, toQ4_ofQ4] at this
    have hab : a = b := by
      rw [dot4_magsq] at hv
      have st : ∀ w : Q4, quatmult4 ⟨(toQ4 v).q1, -(toQ4 v).q2, -(toQ4 v).q3, -(toQ4 v).q4⟩ (quatmult4 (toQ4 v) w) = w := by
        intro w
        have hq : (toQ4 v).q1 * (toQ4 v).q1 + (toQ4 v).q2 * (toQ4 v).q2 + (toQ4 v).q3 * (toQ4 v).q3
          + (toQ4 v).q4 * (toQ4 v).q4 = 1 := hv
        ext <;> simp only [quatmult4]
        · linear_combination w.q1 * hq
        · linear_combination w.q2 * hq
        · linear_combination w.q3 * hq
        · linear_combination w.q4 * hq
      rw [← st a, e2, st b]
    funext w
    rw [h, h', hab]
  search q1 q2 iq u1 u2 := by
    refine ⟨(quatfindsymm4 (toQ4 q1) (toQ4 q2) iq).2, _, rfl, ?_⟩
    obtain ⟨⟨k1, k2⟩, hk, -⟩ := c15_search4 (toQ4 q1) (toQ4 q2) (quatfindsymm4 (toQ4 q1) (toQ4 q2) iq).1 iq
      (quatfindsymm4 (toQ4 q1) (toQ4 q2) iq).2 rfl
    refine ⟨k1, k2, fun s hs => ?_⟩
    rw [rotate4_pos k1 k2] at hk
    simp only [Option.some.injEq, Prod.mk.injEq, and_true] at hk
    obtain ⟨l, l1, l2, h⟩ := (sym4_iff s).mp hs
    have u2' := u2
    rw [dot4_magsq] at u2'
    have un : ∀ m, 1 ≤ m → m ≤ 48 → dot (ofQ4 (quatmult4 (toQ4 q2) (qr4 m))) (ofQ4 (quatmult4 (toQ4 q2) (qr4 m))) = 1 := by
      intro m m1 m2
      rw [dot4_magsq, toQ4_ofQ4, magsq4_mult, u2', qr4_unit m1 m2, one_mul]
    rw [h, rotBy4 _ k1 k2, dsq4 _ _ u1 (un _ k1 k2), dsq4 _ _ u1 (un _ l1 l2), toQ4_ofQ4, toQ4_ofQ4, hk]
    exact c15_nearest4 _ _ _ iq _ rfl l l _ (rotate4_pos l1 l2)

/-! ### Two components -/

theorem toQ2_ofQ2 (q : Q2) : toQ2 (ofQ2 q) = q := by ext <;> simp [toQ2, ofQ2]

theorem ofQ2_toQ2 (v : QVec 2) : ofQ2 (toQ2 v) = v := by
  funext m; fin_cases m <;> simp [toQ2, ofQ2]

theorem rotBy2 (k : ℤ) (h1 : 1 ≤ k) (h2 : k ≤ 4) (v : QVec 2) : rotBy k v = ofQ2 (quatmult2 (toQ2 v) (qr2 k)) := by
  simp [rotBy, quatsymmrotate, rotate2_pos h1 h2]

theorem rotBy2_neg (k : ℤ) (h1 : 1 ≤ k) (h2 : k ≤ 4) (v : QVec 2) :
    rotBy (-1 * k) v = ofQ2 (quatmult2 (toQ2 v) (qr2 (conj2.getD (k - 1).toNat 0))) := by
  rw [show (-1 * k : ℤ) = -k by ring]
  simp [rotBy, quatsymmrotate, rotate2_neg h1 h2]

theorem dot2_magsq (a : QVec 2) : dot a a = quatmagsq2 (toQ2 a) := by
  simp [dot, Fin.sum_univ_two, quatmagsq2, toQ2]

theorem sym2_iff (f : QVec 2 → QVec 2) :
    Sym2 f ↔ ∃ k, 1 ≤ k ∧ k ≤ 4 ∧ ∀ v, f v = ofQ2 (quatmult2 (toQ2 v) (qr2 k)) := by
  obtain ⟨v1, v2, v3, v4⟩ := qr2_val
  constructor
  · rintro ⟨a, b, hab, hf⟩
    have ha : a = 0 ∨ a = 1 ∨ a = -1 := by
      have : a ≤ 1 := by nlinarith [sq_nonneg b]
      have : -1 ≤ a := by nlinarith [sq_nonneg b]
      omega
    have hb : b = 0 ∨ b = 1 ∨ b = -1 := by
      have : b ≤ 1 := by nlinarith [sq_nonneg a]
      have : -1 ≤ b := by nlinarith [sq_nonneg a]
      omega
    rcases ha with rfl | rfl | rfl <;> rcases hb with rfl | rfl | rfl <;> norm_num at hab
    · exact ⟨2, by norm_num, by norm_num, fun v => by rw [hf, v2]; funext m; fin_cases m <;> simp [ofQ2, toQ2, quatmult2]⟩
    · exact ⟨4, by norm_num, by norm_num, fun v => by rw [hf, v4]; funext m; fin_cases m <;> simp [ofQ2, toQ2, quatmult2]⟩
    · exact ⟨1, by norm_num, by norm_num, fun v => by rw [hf, v1]; funext m; fin_cases m <;> simp [ofQ2, toQ2, quatmult2]⟩
    · exact ⟨3, by norm_num, by norm_num, fun v => by rw [hf, v3]; funext m; fin_cases m <;> simp [ofQ2, toQ2, quatmult2]⟩
  · rintro ⟨k, k1, k2, hf⟩
    rcases index2 k1 k2 with rfl | rfl | rfl | rfl
    · exact ⟨1, 0, by norm_num, fun v => by rw [hf, v1]; funext m; fin_cases m <;> simp [ofQ2, toQ2, quatmult2]⟩
    · exact ⟨0, 1, by norm_num, fun v => by rw [hf, v2]; funext m; fin_cases m <;> simp [ofQ2, toQ2, quatmult2]⟩
    · exact ⟨-1, 0, by norm_num, fun v => by rw [hf, v3]; funext m; fin_cases m <;> simp [ofQ2, toQ2, quatmult2]⟩
    · exact ⟨0, -1, by norm_num, fun v => by rw [hf, v4]; funext m; fin_cases m <;> simp [ofQ2, toQ2, quatmult2]⟩

theorem unit_norm2 (q : Q2) (h : quatmagsq2 q = 1) : quatnorm2 q = q := by
  have hm : quatmagn2 q = 1 := by rw [magn2_eq, h, Real.sqrt_one]
  have : quatmaginv2 q = 1 := by
    unfold quatmaginv2
    rw [hm, if_neg (by unfold tiny; norm_num)]; norm_num
  ext <;> simp [quatnorm2, this]

theorem dsq2 (a b : QVec 2) (ha : dot a a = 1) (hb : dot b b = 1) : dsq a b = quatdiffsq2 (toQ2 a) (toQ2 b) := by
  rw [dot2_magsq] at ha hb
  rw [quatdiffsq2, unit_norm2 _ ha, unit_norm2 _ hb]
  simp [dsq, Fin.sum_univ_two, quatmagsq2, quatsub2, toQ2]; ring

theorem table2 : Table 2 4 Sym2 where
  sym k h1 h2 := (sym2_iff _).mpr ⟨k, h1, h2, rotBy2 k h1 h2⟩
  all f hf := by
    obtain ⟨k, k1, k2, h⟩ := (sym2_iff f).mp hf
    exact ⟨k, k1, k2, funext fun v => by rw [h, rotBy2 k k1 k2]⟩
  iso f hf := by
    obtain ⟨a, b, hab, h⟩ := hf
    have hab' : (a : ℝ) ^ 2 + (b : ℝ) ^ 2 = 1 := by exact_mod_cast hab
    refine ⟨fun v w => ?_, fun c v => ?_, fun v w => ?_⟩
    · rw [h, h, h]; funext m; fin_cases m <;> simp <;> ring
    · rw [h, h]; funext m; fin_cases m <;> simp <;> ring
    · rw [h, h]; simp [dot, Fin.sum_univ_two]
      linear_combination (v 0 * w 0 + v 1 * w 1) * hab'
  comp f g hf hg := by
    obtain ⟨k, k1, k2, h⟩ := (sym2_iff f).mp hf
    obtain ⟨l, l1, l2, h'⟩ := (sym2_iff g).mp hg
    obtain ⟨m, m1, m2, e⟩ := qr2_closed l1 l2 k1 k2
    exact (sym2_iff _).mpr ⟨m, m1, m2, fun v => by
      rw [Function.comp_apply, h, h', toQ2_ofQ2, mult2_assoc, e]⟩
  back k h1 h2 := by
    obtain ⟨⟨r1, r2⟩, e1, e2⟩ := conj2_spec h1 h2
    refine ⟨(sym2_iff _).mpr ⟨_, r1, r2, rotBy2_neg k h1 h2⟩, fun v => ?_, fun v => ?_⟩
    · rw [rotBy2_neg k h1 h2, rotBy2 k h1 h2, toQ2_ofQ2, mult2_assoc, e1, mult2_one, ofQ2_toQ2]
    · rw [rotBy2_neg k h1 h2, rotBy2 k h1 h2, toQ2_ofQ2, mult2_assoc, e2, mult2_one, ofQ2_toQ2]
  free f g hf hg v hv e := by
    obtain ⟨a, b, -, h⟩ := hf
    obtain ⟨c, d, -, h'⟩ := hg
    rw [h, h'] at e
    have hq : v 0 * v 0 + v 1 * v 1 = 1 := by simpa [dot, Fin.sum_univ_two] using hv
    have e0 := congrFun e 0
    have e1 := congrFun e 1
    simp at e0 e1
    have ha : (a : ℝ) = c := by linear_combination v 0 * e0 + v 1 * e1 - ((a : ℝ) - c) * hq
    have hb : (b : ℝ) = d := by linear_combination v 0 * e1 - v 1 * e0 - ((b : ℝ) - d) * hq
    funext w
    rw [h, h', ha, hb]
  search q1 q2 iq u1 u2 := by
    refine ⟨(quatfindsymm2 (toQ2 q1) (toQ2 q2) iq).2, _, rfl, ?_⟩
    obtain ⟨⟨k1, k2⟩, hk, -⟩ := c15_search2 (toQ2 q1) (toQ2 q2) (quatfindsymm2 (toQ2 q1) (toQ2 q2) iq).1 iq
      (quatfindsymm2 (toQ2 q1) (toQ2 q2) iq).2 rfl
    refine ⟨k1, k2, fun s hs => ?_⟩
    rw [rotate2_pos k1 k2] at hk
    simp only [Option.some.injEq, Prod.mk.injEq, and_true] at hk
    obtain ⟨l, l1, l2, h⟩ := (sym2_iff s).mp hs
    have u2' := u2
    rw [dot2_magsq] at u2'
    have un : ∀ m, 1 ≤ m → m ≤ 4 → dot (ofQ2 (quatmult2 (toQ2 q2) (qr2 m))) (ofQ2 (quatmult2 (toQ2 q2) (qr2 m))) = 1 := by
      intro m m1 m2
      rw [dot2_magsq, toQ2_ofQ2, magsq2_mult, u2', AMPE.Quat.qr2_unit m1 m2, one_mul]
    rw [h, rotBy2 _ k1 k2, dsq2 _ _ u1 (un _ k1 k2), dsq2 _ _ u1 (un _ l1 l2), toQ2_ofQ2, toQ2_ofQ2, hk]
    exact c15_nearest2 _ _ _ iq _ rfl l l1 l2 _ (rotate2_pos l1 l2)

/-- **C76** (quaternions, symmetry on, fluxes from differences): replace the orientation stored in every cell by any
crystallographically equivalent one, cell by cell independently, and let the rotation indices be searched anew from any
start values. The rate of every cell is the old rate expressed with the copy stored in that cell; both stencils. -/
theorem c76_rate_covariant4 (iso : Bool) (P : CoefParams) (G : Grid) (q : QField 4) (hq : ∀ i j, dot (q i j) (q i j) = 1)
    (γ : ℤ → ℤ → QVec 4 → QVec 4) (hγ : ∀ i j, Sym4 (γ i j)) (ux : ∀ i j, UniqueNearest Sym4 (q i j) (q (i - 1) j))
    (uy : ∀ i j, UniqueNearest Sym4 (q i j) (q i (j - 1))) (ox oy ox' oy' : ℤ → ℤ → ℤ) (i j : ℤ) :
    evaluateQuatRHS true true iso P G (symmRotX (fun i j => γ i j (q i j)) ox') (symmRotY (fun i j => γ i j (q i j)) oy')
        (fun i j => γ i j (q i j)) i j
      = (evaluateQuatRHS true true iso P G (symmRotX q ox) (symmRotY q oy) q i j).map (γ i j) :=
  rhs_cov (by norm_num) γ (fun i j => table4.iso _ (hγ i j)) _ _ _ _ (table4.related q hq γ hγ ux uy ox oy ox' oy') iso P G q i j

/-- **C76** (two components, symmetry on, fluxes from differences): the same. -/
theorem c76_rate_covariant2 (iso : Bool) (P : CoefParams) (G : Grid) (q : QField 2) (hq : ∀ i j, dot (q i j) (q i j) = 1)
    (γ : ℤ → ℤ → QVec 2 → QVec 2) (hγ : ∀ i j, Sym2 (γ i j)) (ux : ∀ i j, UniqueNearest Sym2 (q i j) (q (i - 1) j))
    (uy : ∀ i j, UniqueNearest Sym2 (q i j) (q i (j - 1))) (ox oy ox' oy' : ℤ → ℤ → ℤ) (i j : ℤ) :
    evaluateQuatRHS true true iso P G (symmRotX (fun i j => γ i j (q i j)) ox') (symmRotY (fun i j => γ i j (q i j)) oy')
        (fun i j => γ i j (q i j)) i j
      = (evaluateQuatRHS true true iso P G (symmRotX q ox) (symmRotY q oy) q i j).map (γ i j) :=
  rhs_cov (by norm_num) γ (fun i j => table2.iso _ (hγ i j)) _ _ _ _ (table2.related q hq γ hγ ux uy ox oy ox' oy') iso P G q i j

/-! ## A single crystal -/

theorem dsq_self {n : ℕ} (a : QVec n) : dsq a a = 0 := by simp [dsq]

theorem eq_of_dsq {n : ℕ} {a b : QVec n} (h : dsq a b ≤ 0) : a = b := by
  have h0 : dsq a b = 0 := le_antisymm h (Finset.sum_nonneg fun m _ => sq_nonneg _)
  funext m
  have := (Finset.sum_eq_zero_iff_of_nonneg fun m _ => sq_nonneg (a m - b m)).mp h0 m (Finset.mem_univ m)
  have := pow_eq_zero_iff (two_ne_zero) |>.mp this
  linarith

section single

variable {n : ℕ} {N : ℤ} {Sym : (QVec n → QVec n) → Prop} (T : Table n N Sym)

include T

theorem Table.id_mem (hN : 1 ≤ N) : Sym id := by
  obtain ⟨h, h1, -⟩ := T.back 1 le_rfl hN
  have := T.comp _ _ h (T.sym 1 le_rfl hN)
  rwa [show rotBy (-1 * 1) ∘ (rotBy 1 : QVec n → QVec n) = id from funext h1] at this

/-- The nearest copy of an orientation to itself is itself. -/
theorem Table.unique_self (hN : 1 ≤ N) (q : QVec n) : UniqueNearest Sym q q := by
  intro f f' _ _ h h'
  have a := h _ (T.id_mem hN)
  have b := h' _ (T.id_mem hN)
  simp only [id, dsq_self] at a b
  rw [← eq_of_dsq a, ← eq_of_dsq b]

theorem Table.search_self (hN : 1 ≤ N) (q : QVec n) (hq : dot q q = 1) (iq k : ℤ) (p : QVec n)
    (h : quatfindsymm n q q iq = some (p, k)) :
    (rotBy k : QVec n → QVec n) = id ∧ (rotBy (-1 * k) : QVec n → QVec n) = id := by
  obtain ⟨l, r, e, l1, l2, hmin⟩ := T.search q q iq hq hq
  rw [h] at e
  simp only [Option.some.injEq, Prod.mk.injEq] at e
  obtain ⟨-, rfl⟩ := e
  have a := hmin _ (T.id_mem hN)
  simp only [id, dsq_self] at a
  have e1 := T.free _ _ (T.sym _ l1 l2) (T.id_mem hN) q hq (eq_of_dsq a).symm
  refine ⟨e1, funext fun v => ?_⟩
  have := (T.back _ l1 l2).2.1 v
  rwa [e1] at this

/-- The index arrays of a uniform field. -/
theorem Table.const_plain (hN : 1 ≤ N) (q : QVec n) (hq : dot q q = 1) (ox oy : ℤ → ℤ → ℤ) :
    RotOps.ofIndices n (symmRotX (fun _ _ => q) ox) (symmRotY (fun _ _ => q) oy) = RotOps.plain n := by
  have hx : ∀ i j, (rotBy (symmRotX (fun _ _ => q) ox i j) : QVec n → QVec n) = id ∧
      (rotBy (-1 * symmRotX (fun _ _ => q) ox i j) : QVec n → QVec n) = id := by
    intro i j
    obtain ⟨k, p, e, -⟩ := T.search q q (ox i j) hq hq
    simpa only [symmRotX, e, Option.map_some, Option.getD_some] using T.search_self hN q hq _ _ _ e
  have hy : ∀ i j, (rotBy (symmRotY (fun _ _ => q) oy i j) : QVec n → QVec n) = id ∧
      (rotBy (-1 * symmRotY (fun _ _ => q) oy i j) : QVec n → QVec n) = id := by
    intro i j
    obtain ⟨k, p, e, -⟩ := T.search q q (oy i j) hq hq
    simpa only [symmRotY, e, Option.map_some, Option.getD_some] using T.search_self hN q hq _ _ _ e
  simp only [RotOps.ofIndices, RotOps.plain, hx, hy]

end single

/-- Specification: settings the program accepts (source/QuatModelParameters.cc checks the interpolation kinds). -/
def Accepted (P : CoefParams) : Prop :=
  P.avg ∈ ['a', 'h'] ∧ P.interp1 ∈ ['q', 'p', 'h', 'w', 'l', 'm', '3', 's', 'c'] ∧
    P.interp2 ∈ ['q', 'p', 'h', 'w', 'l', 'm', '3', 's', 'c'] ∧ P.floorType ∈ ['m', 't', 's']

theorem interp_defined (t : Char) (h : t ∈ ['q', 'p', 'h', 'w', 'l', 'm', '3', 's', 'c']) (x : ℝ) :
    ∃ v, AMPE.Functions.interpFunc t x = some v := by
  simp only [List.mem_cons, List.not_mem_nil, or_false] at h
  rcases h with rfl | rfl | rfl | rfl | rfl | rfl | rfl | rfl | rfl <;> simp [AMPE.Functions.interpFunc]

theorem faceCoef_defined {n : ℕ} (P : CoefParams) (hP : Accepted P) (a b s t : ℝ) (gx gy : QVec n) :
    ∃ c, faceCoef P a b s t gx gy = some c := by
  obtain ⟨h1, h2, h3, h4⟩ := hP
  obtain ⟨x, hx⟩ : ∃ x, AMPE.Functions.averageFunc P.avg a b = some x := by
    simp only [List.mem_cons, List.not_mem_nil, or_false] at h1
    rcases h1 with e | e
    · simp [AMPE.Functions.averageFunc, e]
    · simp only [AMPE.Functions.averageFunc, e]
      split_ifs <;> simp_all
  obtain ⟨y, hy⟩ := interp_defined _ h2 x
  obtain ⟨z, hz⟩ := interp_defined _ h3 x
  obtain ⟨w, hw⟩ : ∃ w, evalGradNormi P.floorType (acc (fun m => gx m ^ 2) + acc (fun m => gy m ^ 2)) (P.gradientFloor ^ 2)
      (1 / P.gradientFloor) = some w := by
    simp only [List.mem_cons, List.not_mem_nil, or_false] at h4
    rcases h4 with e | e | e <;> simp only [evalGradNormi, e] <;> simp <;> split_ifs <;> simp
  exact ⟨_, by simp only [faceCoef, hx, hy, hz, hw, Option.bind_eq_bind, Option.bind_some]; rfl⟩

theorem plain_xx {n : ℕ} (hn : 1 < n) (iso : Bool) (hx hy : ℝ) :
    sideGrad iso hx hy (RotOps.plain n) (fun _ _ => 0) (fun _ _ => 0) (fun _ _ => 0) (fun _ _ => 0)
      = ⟨fun _ _ => 0, fun _ _ => 0, fun _ _ => 0, fun _ _ => 0⟩ := by
  have e1 : gXX hx (fun _ _ => (0 : QVec n)) = fun _ _ => 0 := by funext i j m; simp [gXX]
  have e2 : gYY hy (fun _ _ => (0 : QVec n)) = fun _ _ => 0 := by funext i j m; simp [gYY]
  have e3 : gXY hx (RotOps.plain n) (fun _ _ => (0 : QVec n)) = fun _ _ => 0 := by
    funext i j m; simp [gXY, RotOps.plain]
  have e4 : gYX hy (RotOps.plain n) (fun _ _ => (0 : QVec n)) = fun _ _ => 0 := by
    funext i j m; simp [gYX, RotOps.plain]
  have e5 : gIsoXX hx (RotOps.plain n) (fun _ _ => (0 : QVec n)) = fun _ _ => 0 := by
    funext i j m; simp [gIsoXX, RotOps.plain]
  have e6 : gIsoYY hy (RotOps.plain n) (fun _ _ => (0 : QVec n)) = fun _ _ => 0 := by
    funext i j m; simp [gIsoYY, RotOps.plain]
  cases iso <;> simp [sideGrad, e1, e2, e3, e4, e5, e6, hn]

/-- A uniform field has no rate. -/
theorem rhs_const {n : ℕ} (hn : 1 < n) (iso : Bool) (P : CoefParams) (hP : Accepted P) (G : Grid) (kx ky : ℤ → ℤ → ℤ) (q : QVec n)
    (hq : dot q q = 1) (hR : RotOps.ofIndices n kx ky = RotOps.plain n) (i j : ℤ) :
    evaluateQuatRHS true true iso P G kx ky (fun _ _ => q) i j = some 0 := by
  have dx : qdiffX (RotOps.plain n).x (fun _ _ => q) = fun _ _ => 0 := by funext i j; simp [qdiffX, RotOps.plain]
  have dy : qdiffY (RotOps.plain n).y (fun _ _ => q) = fun _ _ => 0 := by funext i j; simp [qdiffY, RotOps.plain]
  simp only [evaluateQuatRHS, if_true, Bool.and_self, Bool.not_true, Bool.and_false, Bool.false_eq_true, if_false,
    forGrad_of_ne hn, hR, dx, dy, plain_xx hn]
  obtain ⟨c1, h1⟩ := faceCoef_defined P hP (G.phi (i - 1) j) (G.phi i j) (G.temp (i - 1) j) (G.temp i j) (0 : QVec n) 0
  obtain ⟨c2, h2⟩ := faceCoef_defined P hP (G.phi (i + 1 - 1) j) (G.phi (i + 1) j) (G.temp (i + 1 - 1) j) (G.temp (i + 1) j) (0 : QVec n) 0
  obtain ⟨c3, h3⟩ := faceCoef_defined P hP (G.phi i (j - 1)) (G.phi i j) (G.temp i (j - 1)) (G.temp i j) (0 : QVec n) 0
  obtain ⟨c4, h4⟩ := faceCoef_defined P hP (G.phi i (j + 1 - 1)) (G.phi i (j + 1)) (G.temp i (j + 1 - 1)) (G.temp i (j + 1)) (0 : QVec n) 0
  simp only [coefX, coefY, h1, h2, h3, h4, Option.bind_eq_bind, Option.bind_some]
  have hf : ∀ c : ℝ, flux c (0 : QVec n) = 0 := fun c => by funext m; simp [flux]
  have fold : ∀ (L : List (Fin n)) (s : ℝ), L.foldl (fun s m => s - q m * 0) s = s := by
    intro L
    induction L with
    | nil => simp
    | cons c L ih => intro s; rw [List.foldl_cons, ih]; simp
  have e : acc (fun m => q m ^ 2) = dot q q := by
    rw [acc_eq]; exact Finset.sum_congr rfl fun m _ => by ring
  simp only [cellRate, if_neg (show n ≠ 1 by omega), hf, lambdaFlux, RotOps.plain, id, Pi.zero_apply, sub_zero, zero_mul,
    add_zero, fold, e, hq]
  norm_num [projOp]
  funext m
  simp [projOp]

/-- **C76**: a single crystal stays as it is, whichever equivalent orientations its cells hold (quaternions). -/
theorem c76_single_crystal4 (iso : Bool) (P : CoefParams) (hP : Accepted P) (G : Grid) (q : QVec 4) (hq : dot q q = 1)
    (γ : ℤ → ℤ → QVec 4 → QVec 4) (hγ : ∀ i j, Sym4 (γ i j)) (ox oy : ℤ → ℤ → ℤ) (i j : ℤ) :
    evaluateQuatRHS true true iso P G (symmRotX (fun i j => γ i j q) ox) (symmRotY (fun i j => γ i j q) oy)
        (fun i j => γ i j q) i j = some 0 := by
  have h := c76_rate_covariant4 iso P G (fun _ _ => q) (fun _ _ => hq) γ hγ
    (fun _ _ => table4.unique_self (by norm_num) q) (fun _ _ => table4.unique_self (by norm_num) q) ox oy ox oy i j
  rw [rhs_const (by norm_num) iso P hP G _ _ q hq (table4.const_plain (by norm_num) q hq ox oy)] at h
  rw [h, Option.map_some]
  have := (table4.iso _ (hγ i j)).smul 0 0
  simpa using this

/-- **C76**: the same with two components. -/
theorem c76_single_crystal2 (iso : Bool) (P : CoefParams) (hP : Accepted P) (G : Grid) (q : QVec 2) (hq : dot q q = 1)
    (γ : ℤ → ℤ → QVec 2 → QVec 2) (hγ : ∀ i j, Sym2 (γ i j)) (ox oy : ℤ → ℤ → ℤ) (i j : ℤ) :
    evaluateQuatRHS true true iso P G (symmRotX (fun i j => γ i j q) ox) (symmRotY (fun i j => γ i j q) oy)
        (fun i j => γ i j q) i j = some 0 := by
  have h := c76_rate_covariant2 iso P G (fun _ _ => q) (fun _ _ => hq) γ hγ
    (fun _ _ => table2.unique_self (by norm_num) q) (fun _ _ => table2.unique_self (by norm_num) q) ox oy ox oy i j
  rw [rhs_const (by norm_num) iso P hP G _ _ q hq (table2.const_plain (by norm_num) q hq ox oy)] at h
  rw [h, Option.map_some]
  have := (table2.iso _ (hγ i j)).smul 0 0
  simpa using this

/-! ## The default setting: correction instead of rotated fluxes -/

/-- Specification: the part of `v` orthogonal to the orientation `q`. -/
noncomputable def tangent {n : ℕ} (q v : QVec n) : QVec n := v - (dot q v / dot q q) • q

theorem dot_add {n : ℕ} (q v w : QVec n) : dot q (v + w) = dot q v + dot q w := by
  simp only [dot, Pi.add_apply, mul_add, Finset.sum_add_distrib]

theorem dot_smul {n : ℕ} (c : ℝ) (q v : QVec n) : dot q (c • v) = c * dot q v := by
  simp only [dot, Pi.smul_apply, smul_eq_mul, Finset.mul_sum]; exact Finset.sum_congr rfl fun m _ => by ring

theorem tangent_add {n : ℕ} (q v w : QVec n) : tangent q (v + w) = tangent q v + tangent q w := by
  funext m; simp only [tangent, dot_add, Pi.sub_apply, Pi.add_apply, Pi.smul_apply, smul_eq_mul]; ring

theorem tangent_smul {n : ℕ} (c : ℝ) (q v : QVec n) : tangent q (c • v) = c • tangent q v := by
  funext m; simp only [tangent, dot_smul, Pi.sub_apply, Pi.smul_apply, smul_eq_mul]; ring

theorem tangent_sub {n : ℕ} (q v w : QVec n) : tangent q (v - w) = tangent q v - tangent q w := by
  rw [sub_eq_add_neg, tangent_add, show -w = (-1 : ℝ) • w by simp, tangent_smul]; simp [sub_eq_add_neg]

theorem tangent_self {n : ℕ} (q : QVec n) (hq : dot q q ≠ 0) : tangent q q = 0 := by
  simp [tangent, div_self hq]

theorem cellRate_eq {n : ℕ} (hn : n ≠ 1) (mob hx hy : ℝ) (Rd : RotOps n) (g : SideGrad n) (cX cY : ℤ → ℤ → ℝ)
    (q : QField n) (i j : ℤ) (hq : dot (q i j) (q i j) ≠ 0) :
    cellRate mob hx hy Rd g cX cY q i j = some ((-mob) • tangent (q i j)
      ((1 / hx) • (Rd.xi (i + 1) j (flux (cX (i + 1) j) (g.xx (i + 1) j)) - flux (cX i j) (g.xx i j))
        + (1 / hy) • (Rd.yi i (j + 1) (flux (cY i (j + 1)) (g.yy i (j + 1))) - flux (cY i j) (g.yy i j)))) := by
  simp only [cellRate, if_neg hn]
  generalize Rd.xi (i + 1) j (flux (cX (i + 1) j) (g.xx (i + 1) j)) = r
  generalize flux (cX i j) (g.xx i j) = l
  generalize Rd.yi i (j + 1) (flux (cY i (j + 1)) (g.yy i (j + 1))) = u
  generalize flux (cY i j) (g.yy i j) = d
  generalize q i j = p at hq ⊢
  have e : acc (fun m => p m ^ 2) = dot p p := by
    rw [acc_eq]; exact Finset.sum_congr rfl fun m _ => by ring
  have fold : ∀ (t : Fin n → ℝ) (L : List (Fin n)) (s : ℝ), L.foldl (fun s m => s - t m) s = s - (L.map t).sum := by
    intro t L
    induction L with
    | nil => simp
    | cons c L ih => intro s; rw [List.foldl_cons, ih]; simp only [List.map_cons, List.sum_cons]; ring
  have hA : ∑ m, p m * ((r m - l m) * (0.5 / hx) + (u m - d m) * (0.5 / hy))
      = dot p ((1 / hx) • (r - l) + (1 / hy) • (u - d)) / 2 := by
    unfold dot
    rw [Finset.sum_div]
    refine Finset.sum_congr rfl fun m _ => ?_
    simp only [Pi.add_apply, Pi.smul_apply, Pi.sub_apply, smul_eq_mul]; ring
  simp only [lambdaFlux, e, if_neg hq, Option.map_some]
  rw [fold fun m => p m * ((r m - l m) * (0.5 / hx) + (u m - d m) * (0.5 / hy)), ← List.ofFn_eq_map, List.sum_ofFn, zero_sub, hA]
  congr 1
  funext m
  simp only [projOp, tangent, Pi.add_apply, Pi.smul_apply, Pi.sub_apply, smul_eq_mul]
  ring

theorem symmAdd_eq {n : ℕ} (hn : 1 < n) (mob : ℝ) (q tmp : QVec n) (hq : dot q q ≠ 0) :
    symmAdd mob q tmp = some (mob • tangent q tmp) := by
  have e : acc (fun m => q m * q m) = dot q q := acc_eq _
  have e2 : acc (fun m => q m * tmp m) = dot q tmp := acc_eq _
  simp only [symmAdd, if_pos hn, e, e2, if_neg hq]
  rfl

/-- What the default setting adds to the rate of the setting with rotated fluxes. -/
theorem default_excess {n : ℕ} {N : ℤ} {Sym : (QVec n → QVec n) → Prop} (T : Table n N Sym) (hn : 1 < n) (P : CoefParams)
    (hP : Accepted P) (G : Grid) (q : QField n) (hq : ∀ i j, dot (q i j) (q i j) = 1) (ox oy : ℤ → ℤ → ℤ) (i j : ℤ) :
    let kx := symmRotX q ox
    let ky := symmRotY q oy
    let sX := qdiffX (fun i j => rotBy (kx i j)) q
    let sY := qdiffY (fun i j => rotBy (ky i j)) q
    let nX := qdiffX (fun _ _ => id) q
    let nY := qdiffY (fun _ _ => id) q
    let g := sideGrad false G.hx G.hy (RotOps.ofIndices n kx ky) sX sY nX nY
    ∃ r r0 c1 c2 c3 c4, evaluateQuatRHS true false false P G kx ky q i j = some r ∧
      evaluateQuatRHS true true false P G kx ky q i j = some r0 ∧
      coefX P G g i j = some c1 ∧ coefX P G g (i + 1) j = some c2 ∧
      coefY P G g i j = some c3 ∧ coefY P G g i (j + 1) = some c4 ∧
      r = r0 + G.mob i j • tangent (q i j)
        ((1 / (G.hx * G.hx)) • (c2 • (nX (i + 1) j - sX (i + 1) j) - c1 • (nX i j - sX i j))
          + (1 / (G.hy * G.hy)) • (c4 • (nY i (j + 1) - sY i (j + 1)) - c3 • (nY i j - sY i j))) := by
  intro kx ky sX sY nX nY g
  have hsX : qdiffX (RotOps.ofIndices n kx ky).x q = sX := rfl
  have hsY : qdiffY (RotOps.ofIndices n kx ky).y q = sY := rfl
  have hnX : qdiffX (RotOps.plain n).x q = nX := rfl
  have hnY : qdiffY (RotOps.plain n).y q = nY := rfl
  have hg : sideGrad false G.hx G.hy (RotOps.ofIndices n kx ky) sX sY nX nY = g := rfl
  have gx : ∀ a b, g.xx a b = (1 / G.hx) • sX a b := fun a b => rfl
  have gy : ∀ a b, g.yy a b = (1 / G.hy) • sY a b := fun a b => rfl
  obtain ⟨c1, h1⟩ : ∃ c, coefX P G g i j = some c := faceCoef_defined P hP _ _ _ _ _ _
  obtain ⟨c2, h2⟩ : ∃ c, coefX P G g (i + 1) j = some c := faceCoef_defined P hP _ _ _ _ _ _
  obtain ⟨c3, h3⟩ : ∃ c, coefY P G g i j = some c := faceCoef_defined P hP _ _ _ _ _ _
  obtain ⟨c4, h4⟩ : ∃ c, coefY P G g i (j + 1) = some c := faceCoef_defined P hP _ _ _ _ _ _
  have hne : dot (q i j) (q i j) ≠ 0 := by rw [hq]; exact one_ne_zero
  have linx : LinIso (rotBy (-1 * kx (i + 1) j) : QVec n → QVec n) := by
    obtain ⟨k, p, e, k1, k2, -⟩ := T.search (q (i + 1) j) (q (i + 1 - 1) j) (ox (i + 1) j) (hq _ _) (hq _ _)
    have : kx (i + 1) j = k := by simp only [kx, symmRotX, e, Option.map_some, Option.getD_some]
    rw [this]
    exact T.iso _ (T.back k k1 k2).1
  have liny : LinIso (rotBy (-1 * ky i (j + 1)) : QVec n → QVec n) := by
    obtain ⟨k, p, e, k1, k2, -⟩ := T.search (q i (j + 1)) (q i (j + 1 - 1)) (oy i (j + 1)) (hq _ _) (hq _ _)
    have : ky i (j + 1) = k := by simp only [ky, symmRotY, e, Option.map_some, Option.getD_some]
    rw [this]
    exact T.iso _ (T.back k k1 k2).1
  have key : ∀ Rd : RotOps n, cellRate (G.mob i j) G.hx G.hy Rd g (fun a _ => if a = i then c1 else c2)
      (fun _ b => if b = j then c3 else c4) q i j = some ((-G.mob i j) • tangent (q i j)
        ((1 / G.hx) • (Rd.xi (i + 1) j (c2 • (1 / G.hx) • sX (i + 1) j) - c1 • (1 / G.hx) • sX i j)
          + (1 / G.hy) • (Rd.yi i (j + 1) (c4 • (1 / G.hy) • sY i (j + 1)) - c3 • (1 / G.hy) • sY i j))) := by
    intro Rd
    rw [cellRate_eq (show n ≠ 1 by omega) _ _ _ _ _ _ _ _ _ _ hne]
    simp only [if_true, show ¬ (i + 1 = i) by omega, show ¬ (j + 1 = j) by omega, if_false, gx, gy]
    rfl
  have htmp : symmTmp G.hx G.hy nX nY sX sY (RotOps.ofIndices n kx ky).xi (RotOps.ofIndices n kx ky).yi
      (fun a _ => if a = i then c1 else c2) (fun _ b => if b = j then c3 else c4) i j
      = (1 / (G.hx * G.hx)) • (c2 • (nX (i + 1) j - rotBy (-1 * kx (i + 1) j) (sX (i + 1) j)) - c1 • (nX i j - sX i j))
        + (1 / (G.hy * G.hy)) • (c4 • (nY i (j + 1) - rotBy (-1 * ky i (j + 1)) (sY i (j + 1))) - c3 • (nY i j - sY i j)) := by
    funext m
    simp [symmTmp, RotOps.ofIndices]
  have e0 : evaluateQuatRHS true true false P G kx ky q i j = some ((-G.mob i j) • tangent (q i j)
        ((1 / G.hx) • ((RotOps.ofIndices n kx ky).xi (i + 1) j (c2 • (1 / G.hx) • sX (i + 1) j) - c1 • (1 / G.hx) • sX i j)
          + (1 / G.hy) • ((RotOps.ofIndices n kx ky).yi i (j + 1) (c4 • (1 / G.hy) • sY i (j + 1)) - c3 • (1 / G.hy) • sY i j))) := by
    simp only [evaluateQuatRHS, if_true, Bool.and_self, Bool.not_true, Bool.and_false, Bool.false_eq_true, if_false,
      forGrad_of_ne hn, hsX, hsY, hnX, hnY, hg, h1, h2, h3, h4, Option.bind_eq_bind, Option.bind_some, key]
  have e1 : evaluateQuatRHS true false false P G kx ky q i j = some (((-G.mob i j) • tangent (q i j)
        ((1 / G.hx) • ((RotOps.plain n).xi (i + 1) j (c2 • (1 / G.hx) • sX (i + 1) j) - c1 • (1 / G.hx) • sX i j)
          + (1 / G.hy) • ((RotOps.plain n).yi i (j + 1) (c4 • (1 / G.hy) • sY i (j + 1)) - c3 • (1 / G.hy) • sY i j)))
        + G.mob i j • tangent (q i j) ((1 / (G.hx * G.hx)) • (c2 • (nX (i + 1) j - rotBy (-1 * kx (i + 1) j) (sX (i + 1) j))
            - c1 • (nX i j - sX i j))
          + (1 / (G.hy * G.hy)) • (c4 • (nY i (j + 1) - rotBy (-1 * ky i (j + 1)) (sY i (j + 1))) - c3 • (nY i j - sY i j)))) := by
    simp only [evaluateQuatRHS, if_true, Bool.not_false, Bool.and_true, Bool.and_false, Bool.false_eq_true, if_false,
      forGrad_of_ne hn, hsX, hsY, hnX, hnY, hg, h1, h2, h3, h4, Option.bind_eq_bind, Option.bind_some, key, htmp,
      symmAdd_eq hn _ _ _ hne]
  refine ⟨_, _, c1, c2, c3, c4, e1, e0, h1, h2, h3, h4, ?_⟩
  simp only [RotOps.plain, RotOps.ofIndices, id, linx.smul, liny.smul]
  rw [← sub_eq_zero]
  simp only [← tangent_smul, ← tangent_add, ← tangent_sub]
  have z : tangent (q i j) 0 = 0 := by simpa using tangent_smul 0 (q i j) 0
  refine Eq.trans ?_ z
  congr 1
  funext m
  simp only [Pi.add_apply, Pi.smul_apply, Pi.sub_apply, smul_eq_mul, Pi.zero_apply]
  ring

/-- **C76 fails** in the default setting (symmetry on, `use_diffs_to_compute_flux` off): the fluxes are built from the
symmetric differences without being turned back, and the correction then subtracts the non-symmetric ones. The rate is
the intended one plus the projected divergence of the jump between plain and symmetric differences, for every unit
orientation field. -/
theorem c76_violation_default4 (P : CoefParams) (hP : Accepted P) (G : Grid) (q : QField 4)
    (hq : ∀ i j, dot (q i j) (q i j) = 1) (ox oy : ℤ → ℤ → ℤ) (i j : ℤ) :
    let kx := symmRotX q ox
    let ky := symmRotY q oy
    let sX := qdiffX (fun i j => rotBy (kx i j)) q
    let sY := qdiffY (fun i j => rotBy (ky i j)) q
    let nX := qdiffX (fun _ _ => id) q
    let nY := qdiffY (fun _ _ => id) q
    let g := sideGrad false G.hx G.hy (RotOps.ofIndices 4 kx ky) sX sY nX nY
    ∃ r r0 c1 c2 c3 c4, evaluateQuatRHS true false false P G kx ky q i j = some r ∧
      evaluateQuatRHS true true false P G kx ky q i j = some r0 ∧
      coefX P G g i j = some c1 ∧ coefX P G g (i + 1) j = some c2 ∧
      coefY P G g i j = some c3 ∧ coefY P G g i (j + 1) = some c4 ∧
      r = r0 + G.mob i j • tangent (q i j)
        ((1 / (G.hx * G.hx)) • (c2 • (nX (i + 1) j - sX (i + 1) j) - c1 • (nX i j - sX i j))
          + (1 / (G.hy * G.hy)) • (c4 • (nY i (j + 1) - sY i (j + 1)) - c3 • (nY i j - sY i j))) :=
  default_excess table4 (by norm_num) P hP G q hq ox oy i j

/-- **C76 fails** in the default setting: two components. -/
theorem c76_violation_default2 (P : CoefParams) (hP : Accepted P) (G : Grid) (q : QField 2)
    (hq : ∀ i j, dot (q i j) (q i j) = 1) (ox oy : ℤ → ℤ → ℤ) (i j : ℤ) :
    let kx := symmRotX q ox
    let ky := symmRotY q oy
    let sX := qdiffX (fun i j => rotBy (kx i j)) q
    let sY := qdiffY (fun i j => rotBy (ky i j)) q
    let nX := qdiffX (fun _ _ => id) q
    let nY := qdiffY (fun _ _ => id) q
    let g := sideGrad false G.hx G.hy (RotOps.ofIndices 2 kx ky) sX sY nX nY
    ∃ r r0 c1 c2 c3 c4, evaluateQuatRHS true false false P G kx ky q i j = some r ∧
      evaluateQuatRHS true true false P G kx ky q i j = some r0 ∧
      coefX P G g i j = some c1 ∧ coefX P G g (i + 1) j = some c2 ∧
      coefY P G g i j = some c3 ∧ coefY P G g i (j + 1) = some c4 ∧
      r = r0 + G.mob i j • tangent (q i j)
        ((1 / (G.hx * G.hx)) • (c2 • (nX (i + 1) j - sX (i + 1) j) - c1 • (nX i j - sX i j))
          + (1 / (G.hy * G.hy)) • (c4 • (nY i (j + 1) - sY i (j + 1)) - c3 • (nY i j - sY i j))) :=
  default_excess table2 (by norm_num) P hP G q hq ox oy i j

/-- **C76 fails** in the default setting: one angle (no projection, the rotation only shifts the angle). -/
theorem c76_violation_default1 (P : CoefParams) (hP : Accepted P) (G : Grid) (q : QField 1) (kx ky : ℤ → ℤ → ℤ) (i j : ℤ) :
    let sX := qdiffX (fun i j => rotBy (kx i j)) q
    let sY := qdiffY (fun i j => rotBy (ky i j)) q
    let nX := qdiffX (fun _ _ => id) q
    let nY := qdiffY (fun _ _ => id) q
    let g := sideGrad false G.hx G.hy (RotOps.plain 1) sX sY nX nY
    ∃ r r0 c1 c2 c3 c4, evaluateQuatRHS true false false P G kx ky q i j = some r ∧
      evaluateQuatRHS true true false P G kx ky q i j = some r0 ∧
      coefX P G g i j = some c1 ∧ coefX P G g (i + 1) j = some c2 ∧
      coefY P G g i j = some c3 ∧ coefY P G g i (j + 1) = some c4 ∧
      r = r0 + G.mob i j •
        ((1 / (G.hx * G.hx)) • (c2 • (nX (i + 1) j - sX (i + 1) j) - c1 • (nX i j - sX i j))
          + (1 / (G.hy * G.hy)) • (c4 • (nY i (j + 1) - sY i (j + 1)) - c3 • (nY i j - sY i j))) := by
  intro sX sY nX nY g
  have hsX : qdiffX (RotOps.ofIndices 1 kx ky).x q = sX := rfl
  have hsY : qdiffY (RotOps.ofIndices 1 kx ky).y q = sY := rfl
  have hnX : qdiffX (RotOps.plain 1).x q = nX := rfl
  have hnY : qdiffY (RotOps.plain 1).y q = nY := rfl
  have hg : sideGrad false G.hx G.hy (RotOps.plain 1) sX sY nX nY = g := rfl
  have gx : ∀ a b, g.xx a b = (1 / G.hx) • sX a b := fun a b => rfl
  have gy : ∀ a b, g.yy a b = (1 / G.hy) • sY a b := fun a b => rfl
  have hfg : (RotOps.ofIndices 1 kx ky).forGrad = RotOps.plain 1 := by simp [RotOps.forGrad]
  obtain ⟨c1, h1⟩ : ∃ c, coefX P G g i j = some c := faceCoef_defined P hP _ _ _ _ _ _
  obtain ⟨c2, h2⟩ : ∃ c, coefX P G g (i + 1) j = some c := faceCoef_defined P hP _ _ _ _ _ _
  obtain ⟨c3, h3⟩ : ∃ c, coefY P G g i j = some c := faceCoef_defined P hP _ _ _ _ _ _
  obtain ⟨c4, h4⟩ : ∃ c, coefY P G g i (j + 1) = some c := faceCoef_defined P hP _ _ _ _ _ _
  have key : ∀ Rd : RotOps 1, cellRate (G.mob i j) G.hx G.hy Rd g (fun a _ => if a = i then c1 else c2)
      (fun _ b => if b = j then c3 else c4) q i j = some (plainOp (G.mob i j) G.hx G.hy (flux c1 ((1 / G.hx) • sX i j))
        (flux c2 ((1 / G.hx) • sX (i + 1) j)) (flux c3 ((1 / G.hy) • sY i j)) (flux c4 ((1 / G.hy) • sY i (j + 1)))) := by
    intro Rd
    simp only [cellRate, if_true, show ¬ (i + 1 = i) by omega, show ¬ (j + 1 = j) by omega, if_false, gx, gy]
  have e0 : evaluateQuatRHS true true false P G kx ky q i j = some (plainOp (G.mob i j) G.hx G.hy
      (flux c1 ((1 / G.hx) • sX i j)) (flux c2 ((1 / G.hx) • sX (i + 1) j)) (flux c3 ((1 / G.hy) • sY i j))
      (flux c4 ((1 / G.hy) • sY i (j + 1)))) := by
    simp only [evaluateQuatRHS, if_true, Bool.and_self, Bool.not_true, Bool.and_false, Bool.false_eq_true, if_false,
      hfg, hsX, hsY, hnX, hnY, hg, h1, h2, h3, h4, Option.bind_eq_bind, Option.bind_some, key]
  have e1 : evaluateQuatRHS true false false P G kx ky q i j = some (plainOp (G.mob i j) G.hx G.hy
      (flux c1 ((1 / G.hx) • sX i j)) (flux c2 ((1 / G.hx) • sX (i + 1) j)) (flux c3 ((1 / G.hy) • sY i j))
      (flux c4 ((1 / G.hy) • sY i (j + 1))) + fun m => G.mob i j * symmTmp G.hx G.hy nX nY sX sY (RotOps.plain 1).xi
        (RotOps.plain 1).yi (fun a _ => if a = i then c1 else c2) (fun _ b => if b = j then c3 else c4) i j m) := by
    simp only [evaluateQuatRHS, if_true, Bool.not_false, Bool.and_true, Bool.and_false, Bool.false_eq_true, if_false,
      hfg, hsX, hsY, hnX, hnY, hg, h1, h2, h3, h4, Option.bind_eq_bind, Option.bind_some, key, symmAdd, gt_iff_lt,
      lt_self_iff_false]
  refine ⟨_, _, c1, c2, c3, c4, e1, e0, h1, h2, h3, h4, ?_⟩
  funext m
  simp only [symmTmp, RotOps.plain, id, if_true, show ¬ (i + 1 = i) by omega, show ¬ (j + 1 = j) by omega, if_false,
    Pi.add_apply, Pi.smul_apply, Pi.sub_apply, smul_eq_mul]

/-- **C76** (partial): where the plain differences on the four sides of a cell are the symmetric ones (no relabelling
across them), the default setting gives the rate of the other setting. Missing: cells with a relabelled neighbour. -/
theorem c76_default_agrees_partial (P : CoefParams) (hP : Accepted P) (G : Grid) (q : QField 4)
    (hq : ∀ i j, dot (q i j) (q i j) = 1) (ox oy : ℤ → ℤ → ℤ) (i j : ℤ)
    (h1 : rotBy (symmRotX q ox i j) (q (i - 1) j) = q (i - 1) j) (h2 : rotBy (symmRotX q ox (i + 1) j) (q i j) = q i j)
    (h3 : rotBy (symmRotY q oy i j) (q i (j - 1)) = q i (j - 1)) (h4 : rotBy (symmRotY q oy i (j + 1)) (q i j) = q i j) :
    evaluateQuatRHS true false false P G (symmRotX q ox) (symmRotY q oy) q i j
      = evaluateQuatRHS true true false P G (symmRotX q ox) (symmRotY q oy) q i j := by
  obtain ⟨r, r0, c1, c2, c3, c4, e, e0, -, -, -, -, h⟩ := default_excess table4 (by norm_num) P hP G q hq ox oy i j
  rw [e, e0, h]
  simp only [qdiffX, qdiffY, id, show (i + 1 - 1 : ℤ) = i by ring, show (j + 1 - 1 : ℤ) = j by ring, h1, h2, h3, h4, sub_self,
    smul_zero, add_zero]
  have z : tangent (q i j) 0 = 0 := by simpa using tangent_smul 0 (q i j) 0
  rw [z, smul_zero, add_zero]

theorem single_default {n : ℕ} {N : ℤ} {Sym : (QVec n → QVec n) → Prop} (T : Table n N Sym) (hN : 1 ≤ N) (hn : 1 < n)
    (P : CoefParams) (hP : Accepted P) (G : Grid) (q : QVec n) (hq : dot q q = 1) (γ : ℤ → ℤ → QVec n → QVec n)
    (hγ : ∀ i j, Sym (γ i j)) (ox oy : ℤ → ℤ → ℤ) (i j : ℤ) :
    ∃ c1 c2 c3 c4,
      faceCoef P (G.phi (i - 1) j) (G.phi i j) (G.temp (i - 1) j) (G.temp i j) (0 : QVec n) 0 = some c1 ∧
      faceCoef P (G.phi i j) (G.phi (i + 1) j) (G.temp i j) (G.temp (i + 1) j) (0 : QVec n) 0 = some c2 ∧
      faceCoef P (G.phi i (j - 1)) (G.phi i j) (G.temp i (j - 1)) (G.temp i j) (0 : QVec n) 0 = some c3 ∧
      faceCoef P (G.phi i j) (G.phi i (j + 1)) (G.temp i j) (G.temp i (j + 1)) (0 : QVec n) 0 = some c4 ∧
      evaluateQuatRHS true false false P G (symmRotX (fun i j => γ i j q) ox) (symmRotY (fun i j => γ i j q) oy)
        (fun i j => γ i j q) i j
      = some (G.mob i j • tangent (γ i j q)
        ((1 / (G.hx * G.hx)) • (c2 • γ (i + 1) j q + c1 • γ (i - 1) j q)
          + (1 / (G.hy * G.hy)) • (c4 • γ i (j + 1) q + c3 • γ i (j - 1) q))) := by
  have hu : ∀ i j, dot (γ i j q) (γ i j q) = 1 := fun i j => by rw [(T.iso _ (hγ i j)).dot, hq]
  have hrel := T.related (fun _ _ => q) (fun _ _ => hq) γ hγ (fun _ _ => T.unique_self hN q)
    (fun _ _ => T.unique_self hN q) ox oy ox oy
  rw [T.const_plain hN q hq] at hrel
  obtain ⟨r, r0, c1, c2, c3, c4, e, e0, h1, h2, h3, h4, h⟩ :=
    default_excess T hn P hP G (fun i j => γ i j q) hu ox oy i j
  have hr0 : r0 = 0 := by
    have := rhs_cov hn γ (fun i j => T.iso _ (hγ i j)) (symmRotX (fun _ _ => q) ox) (symmRotY (fun _ _ => q) oy)
      (symmRotX (fun i j => γ i j q) ox) (symmRotY (fun i j => γ i j q) oy) (by rw [T.const_plain hN q hq]; exact hrel) false P G (fun _ _ => q) i j
    rw [rhs_const hn false P hP G _ _ q hq (T.const_plain hN q hq ox oy), e0] at this
    simp only [Option.map_some, Option.some.injEq] at this
    rw [this]
    simpa using (T.iso _ (hγ i j)).smul 0 0
  have dx : qdiffX (fun a b => rotBy (symmRotX (fun i j => γ i j q) ox a b)) (fun i j => γ i j q) = fun _ _ => 0 := by
    funext a b
    exact sub_eq_zero.mpr (hrel.x a b q).symm
  have dy : qdiffY (fun a b => rotBy (symmRotY (fun i j => γ i j q) oy a b)) (fun i j => γ i j q) = fun _ _ => 0 := by
    funext a b
    exact sub_eq_zero.mpr (hrel.y a b q).symm
  have lin : ∀ i j, LinIso (rotBy (symmRotX (fun i j => γ i j q) ox i j) : QVec n → QVec n) ∧
      LinIso (rotBy (-1 * symmRotX (fun i j => γ i j q) ox i j) : QVec n → QVec n) ∧
      LinIso (rotBy (symmRotY (fun i j => γ i j q) oy i j) : QVec n → QVec n) ∧
      LinIso (rotBy (-1 * symmRotY (fun i j => γ i j q) oy i j) : QVec n → QVec n) := by
    intro i j
    obtain ⟨k, p, e, k1, k2, -⟩ := T.search (γ i j q) (γ (i - 1) j q) (ox i j) (hu _ _) (hu _ _)
    obtain ⟨l, p', e', l1, l2, -⟩ := T.search (γ i j q) (γ i (j - 1) q) (oy i j) (hu _ _) (hu _ _)
    simp only [symmRotX, symmRotY, e, e', Option.map_some, Option.getD_some]
    exact ⟨T.iso _ (T.sym _ k1 k2), T.iso _ (T.back _ k1 k2).1, T.iso _ (T.sym _ l1 l2), T.iso _ (T.back _ l1 l2).1⟩
  have z : ∀ {f : QVec n → QVec n}, LinIso f → f 0 = 0 := fun hf => by simpa using hf.smul 0 0
  have hg : ∀ nX nY : QField n, sideGrad false G.hx G.hy (RotOps.ofIndices n (symmRotX (fun i j => γ i j q) ox)
      (symmRotY (fun i j => γ i j q) oy)) (fun _ _ => 0) (fun _ _ => 0) nX nY
      = ⟨fun _ _ => 0, fun _ _ => 0, fun _ _ => 0, fun _ _ => 0⟩ := by
    intro nX nY
    have e1 : gXX G.hx (fun _ _ => (0 : QVec n)) = fun _ _ => 0 := by funext i j m; simp [gXX]
    have e2 : gYY G.hy (fun _ _ => (0 : QVec n)) = fun _ _ => 0 := by funext i j m; simp [gYY]
    simp only [sideGrad, Bool.false_eq_true, if_false, e1, e2, SideGrad.mk.injEq, true_and, and_true]
    constructor <;> funext a b m
    · simp only [gYX, RotOps.ofIndices, z (lin _ _).2.2.2, add_zero, z (lin _ _).1, Pi.zero_apply, mul_zero]
    · simp only [gXY, RotOps.ofIndices, z (lin _ _).2.1, add_zero, z (lin _ _).2.2.1, Pi.zero_apply, mul_zero]
  simp only [dx, dy, hg] at h1 h2 h3 h4 h
  simp only [coefX, coefY, show (i + 1 - 1 : ℤ) = i by ring, show (j + 1 - 1 : ℤ) = j by ring] at h1 h2 h3 h4
  refine ⟨c1, c2, c3, c4, h1, h2, h3, h4, ?_⟩
  rw [e, h, hr0, zero_add]
  simp only [qdiffX, qdiffY, id, show (i + 1 - 1 : ℤ) = i by ring, show (j + 1 - 1 : ℤ) = j by ring, sub_zero]
  congr 2
  have ts : tangent (γ i j q) (γ i j q) = 0 := tangent_self _ (by rw [hu]; exact one_ne_zero)
  simp only [tangent_add, tangent_smul, tangent_sub, ts, sub_zero, zero_sub, smul_neg, sub_neg_eq_add]

/-- **C76 fails**: rate of a single crystal in the default setting, whatever equivalent quaternions its cells hold: the
neighbours pull the stored quaternion towards their own copies, `c1 … c4` being the (negative) coefficients of the four
faces. -/
theorem c76_violation_single_crystal4 (P : CoefParams) (hP : Accepted P) (G : Grid) (q : QVec 4) (hq : dot q q = 1)
    (γ : ℤ → ℤ → QVec 4 → QVec 4) (hγ : ∀ i j, Sym4 (γ i j)) (ox oy : ℤ → ℤ → ℤ) (i j : ℤ) :
    ∃ c1 c2 c3 c4,
      faceCoef P (G.phi (i - 1) j) (G.phi i j) (G.temp (i - 1) j) (G.temp i j) (0 : QVec 4) 0 = some c1 ∧
      faceCoef P (G.phi i j) (G.phi (i + 1) j) (G.temp i j) (G.temp (i + 1) j) (0 : QVec 4) 0 = some c2 ∧
      faceCoef P (G.phi i (j - 1)) (G.phi i j) (G.temp i (j - 1)) (G.temp i j) (0 : QVec 4) 0 = some c3 ∧
      faceCoef P (G.phi i j) (G.phi i (j + 1)) (G.temp i j) (G.temp i (j + 1)) (0 : QVec 4) 0 = some c4 ∧
      evaluateQuatRHS true false false P G (symmRotX (fun i j => γ i j q) ox) (symmRotY (fun i j => γ i j q) oy)
        (fun i j => γ i j q) i j
      = some (G.mob i j • tangent (γ i j q)
        ((1 / (G.hx * G.hx)) • (c2 • γ (i + 1) j q + c1 • γ (i - 1) j q)
          + (1 / (G.hy * G.hy)) • (c4 • γ i (j + 1) q + c3 • γ i (j - 1) q))) :=
  single_default table4 (by norm_num) (by norm_num) P hP G q hq γ hγ ox oy i j

/-- The rotation by a half turn about the first axis. -/
def halfTurn : QVec 4 → QVec 4 := fun v => ofQ4 (quatmult4 (toQ4 v) ⟨0, 1, 0, 0⟩)

theorem halfTurn_sym : Sym4 halfTurn := by
  refine ⟨⟨0, 1, 0, 0⟩, by norm_num [lenSq], ?_, fun v => rfl⟩
  intro i j
  fin_cases i <;> fin_cases j <;> simp [quatrotationmatrix]

/-- **C76 fails**: a single crystal that starts to rotate by itself. All cells hold the quaternion `(1,0,0,0)` except
one, which holds its equivalent `(0,1,0,0)`; the cell next to it acquires a rate, `c` being the coefficient of the face
between them. With rotated fluxes its rate is zero. -/
theorem c76_violation_spontaneous4 (P : CoefParams) (hP : Accepted P) (G : Grid) (ox oy : ℤ → ℤ → ℤ) :
    let q : QField 4 := fun i j => if i = -1 ∧ j = 0 then ![0, 1, 0, 0] else ![1, 0, 0, 0]
    ∃ c, faceCoef P (G.phi (-1) 0) (G.phi 0 0) (G.temp (-1) 0) (G.temp 0 0) (0 : QVec 4) 0 = some c ∧
      evaluateQuatRHS true false false P G (symmRotX q ox) (symmRotY q oy) q 0 0
        = some ![0, G.mob 0 0 * c / (G.hx * G.hx), 0, 0] ∧
      evaluateQuatRHS true true false P G (symmRotX q ox) (symmRotY q oy) q 0 0 = some 0 := by
  intro q
  have hγ : ∀ i j : ℤ, Sym4 ((fun i j => if i = -1 ∧ j = 0 then halfTurn else id) i j) := by
    intro i j
    by_cases h : i = -1 ∧ j = 0
    · simp only [h, and_self, if_true]; exact halfTurn_sym
    · simp only [h, if_false]; exact table4.id_mem (by norm_num)
  have hq : q = fun i j => (fun i j => if i = -1 ∧ j = 0 then halfTurn else id) i j ![1, 0, 0, 0] := by
    funext i j
    by_cases h : i = -1 ∧ j = 0
    · simp only [q, h, and_self, if_true]
      funext m; fin_cases m <;> simp [halfTurn, ofQ4, toQ4, quatmult4]
    · simp only [q, h, if_false, id]
  have hu : dot (![1, 0, 0, 0] : QVec 4) ![1, 0, 0, 0] = 1 := by simp [dot, Fin.sum_univ_four]
  obtain ⟨c1, c2, c3, c4, h1, -, -, -, h⟩ := c76_violation_single_crystal4 P hP G ![1, 0, 0, 0] hu _ hγ ox oy 0 0
  refine ⟨c1, by simpa using h1, ?_, ?_⟩
  · rw [hq, h]
    congr 1
    funext m
    fin_cases m <;> simp [tangent, dot, Fin.sum_univ_four, halfTurn, ofQ4, toQ4, quatmult4] <;> ring
  · rw [hq]
    exact c76_single_crystal4 false P hP G ![1, 0, 0, 0] hu _ hγ ox oy 0 0

/-! ## One component -/

/-- **C76 fails** (one angle, isotropic stencil): the gradient normal to a face reads the plain differences of the two
neighbouring faces. For a single crystal, all symmetric differences zero, it is their sum over `12 h`. -/
theorem c76_violation_isotropic_angle (hx : ℝ) (hh : hx ≠ 0) (R : RotOps 1) (hy : ℝ) (dY nX nY : QField 1) (i j : ℤ) :
    (sideGrad true hx hy R (fun _ _ => 0) dY nX nY).xx i j 0 = (nX i (j - 1) 0 + nX i (j + 1) 0) / (12 * hx) ∧
    ((sideGrad true hx hy R (fun _ _ => 0) dY nX nY).xx i j = 0 ↔ nX i (j - 1) 0 = -nX i (j + 1) 0) := by
  have e : (sideGrad true hx hy R (fun _ _ => 0) dY nX nY).xx i j 0 = (nX i (j - 1) 0 + nX i (j + 1) 0) / (12 * hx) := by
    simp only [sideGrad, if_true, gt_iff_lt, lt_self_iff_false, if_false, gIsoXX1]
    simp only [Pi.zero_apply, mul_zero, zero_add]
    field_simp
  refine ⟨e, ?_⟩
  constructor
  · intro h
    rw [h] at e
    have := (div_eq_zero_iff.mp e.symm).resolve_right (by positivity)
    linarith
  · intro h
    funext m
    rw [Subsingleton.elim m 0, e, h]
    simp

/-- The same for the gradient normal to the faces in the other direction. -/
theorem c76_violation_isotropic_angle_y (hy : ℝ) (hh : hy ≠ 0) (R : RotOps 1) (hx : ℝ) (dX nX nY : QField 1) (i j : ℤ) :
    (sideGrad true hx hy R dX (fun _ _ => 0) nX nY).yy i j 0 = (nY (i - 1) j 0 + nY (i + 1) j 0) / (12 * hy) ∧
    ((sideGrad true hx hy R dX (fun _ _ => 0) nX nY).yy i j = 0 ↔ nY (i - 1) j 0 = -nY (i + 1) j 0) := by
  have e : (sideGrad true hx hy R dX (fun _ _ => 0) nX nY).yy i j 0 = (nY (i - 1) j 0 + nY (i + 1) j 0) / (12 * hy) := by
    simp only [sideGrad, if_true, gt_iff_lt, lt_self_iff_false, if_false, gIsoYY1]
    simp only [Pi.zero_apply, mul_zero, zero_add]
    field_simp
  refine ⟨e, ?_⟩
  constructor
  · intro h
    rw [h] at e
    have := (div_eq_zero_iff.mp e.symm).resolve_right (by positivity)
    linarith
  · intro h
    funext m
    rw [Subsingleton.elim m 0, e, h]
    simp

/-- **C76.** The orientation the search hands back is the second argument rotated with the index it hands back. -/
theorem c76_search_copy (n : ℕ) (q1 q2 p : QVec n) (iq k : ℤ) (h : quatfindsymm n q1 q2 iq = some (p, k)) :
    quatsymmrotate n q2 k = some (p, k) := by
  match n, q1, q2, p, h with
  | 4, q1, q2, p, h =>
    simp only [quatfindsymm, Option.some.injEq, Prod.mk.injEq] at h
    obtain ⟨rfl, rfl⟩ := h
    have e := (c15_search4 (toQ4 q1) (toQ4 q2) (quatfindsymm4 (toQ4 q1) (toQ4 q2) iq).1 iq
      (quatfindsymm4 (toQ4 q1) (toQ4 q2) iq).2 rfl).2.1
    simp only [quatsymmrotate]
    rw [e]; rfl
  | 2, q1, q2, p, h =>
    simp only [quatfindsymm, Option.some.injEq, Prod.mk.injEq] at h
    obtain ⟨rfl, rfl⟩ := h
    have e := (c15_search2 (toQ2 q1) (toQ2 q2) (quatfindsymm2 (toQ2 q1) (toQ2 q2) iq).1 iq
      (quatfindsymm2 (toQ2 q1) (toQ2 q2) iq).2 rfl).2.1
    simp only [quatsymmrotate]
    rw [e]; rfl
  | 1, q1, q2, p, h =>
    simp only [quatfindsymm, Option.some.injEq, Prod.mk.injEq] at h
    obtain ⟨rfl, rfl⟩ := h
    have e := (c15_search1 (q1 0) (q2 0) (quatfindsymm1 (q1 0) (q2 0) iq).1 iq
      (quatfindsymm1 (q1 0) (q2 0) iq).2 rfl).2.1
    simp only [quatsymmrotate]
    rw [e]; rfl
  | 0, _, _, _, h => simp [quatfindsymm] at h
  | 3, _, _, _, h => simp [quatfindsymm] at h
  | n + 5, _, _, _, h => simp [quatfindsymm] at h

/-! ## When the nearest copy is unique -/

/-- Two unit vectors that both make the inner product `a` with a third make an inner product of at least `2 a² - 1`. -/
theorem pair_close {n : ℕ} (u v w : QVec n) (hu : dot u u = 1) (hv : dot v v = 1) (hw : dot w w = 1) (a : ℝ)
    (h1 : dot w u = a) (h2 : dot w v = a) : 2 * a ^ 2 - 1 ≤ dot u v := by
  have cs := Finset.sum_mul_sq_le_sq_mul_sq Finset.univ w (u + v)
  have e1 : ∑ m, w m * (u + v) m = a + a := by
    rw [← h1]; nth_rewrite 2 [h1]; rw [← h2]; exact dot_add w u v
  have e2 : ∑ m, w m ^ 2 = 1 := by rw [← hw]; exact Finset.sum_congr rfl fun m _ => by ring
  have e3 : ∑ m, (u + v) m ^ 2 = 2 + 2 * dot u v := by
    have : ∑ m, (u + v) m ^ 2 = dot u u + dot v v + 2 * dot u v := by
      simp only [dot, Finset.mul_sum, ← Finset.sum_add_distrib]
      exact Finset.sum_congr rfl fun m _ => by simp only [Pi.add_apply]; ring
    rw [this, hu, hv]; ring
  rw [e1, e2, e3] at cs
  nlinarith

theorem dsq_dot {n : ℕ} (a b : QVec n) (ha : dot a a = 1) (hb : dot b b = 1) : dsq a b = 2 - 2 * dot a b := by
  have : dsq a b = dot a a + dot b b - 2 * dot a b := by
    simp only [dsq, dot, Finset.mul_sum, ← Finset.sum_add_distrib, ← Finset.sum_sub_distrib]
    exact Finset.sum_congr rfl fun m _ => by ring
  rw [this, ha, hb]; ring

theorem unique_of_close {n : ℕ} {N : ℤ} {Sym : (QVec n → QVec n) → Prop} (T : Table n N Sym) (c : ℝ) (hc : 0 ≤ c)
    (sep : ∀ f g, Sym f → Sym g → ∀ v : QVec n, dot v v = 1 → f = g ∨ dot (f v) (g v) ≤ 2 * c ^ 2 - 1)
    (q1 q2 : QVec n) (u1 : dot q1 q1 = 1) (u2 : dot q2 q2 = 1) (s : QVec n → QVec n) (hs : Sym s)
    (h : c < dot q1 (s q2)) : UniqueNearest Sym q1 q2 := by
  intro f g hf hg mf mg
  have un : ∀ f, Sym f → dot (f q2) (f q2) = 1 := fun f hf => by rw [(T.iso f hf).dot, u2]
  have a := mf s hs
  have b := mf g hg
  have b' := mg f hf
  rw [dsq_dot _ _ u1 (un _ hf), dsq_dot _ _ u1 (un _ hs)] at a
  rw [dsq_dot _ _ u1 (un _ hf), dsq_dot _ _ u1 (un _ hg)] at b b'
  have e : dot q1 (g q2) = dot q1 (f q2) := by linarith
  have := pair_close _ _ q1 (un _ hf) (un _ hg) u1 _ rfl e
  rcases sep f g hf hg q2 u2 with rfl | hle
  · rfl
  · exfalso
    nlinarith

/-- **C76**: the nearest copy is unique, so that the theorems apply, whenever the misorientation between the two cells
(the least rotation angle over all equivalent descriptions) is below 45 degrees: inner product above `cos(π/8)`. -/
theorem c76_unique_below_45 (q1 q2 : QVec 4) (u1 : dot q1 q1 = 1) (u2 : dot q2 q2 = 1) (s : QVec 4 → QVec 4) (hs : Sym4 s)
    (h : Real.cos (Real.pi / 8) < dot q1 (s q2)) : UniqueNearest Sym4 q1 q2 := by
  refine unique_of_close table4 (Real.cos (Real.pi / 8)) ?_ ?_ q1 q2 u1 u2 s hs h
  · exact Real.cos_nonneg_of_neg_pi_div_two_le_of_le (by linarith [Real.pi_pos]) (by linarith [Real.pi_pos])
  · intro f g hf hg v hv
    obtain ⟨k, k1, k2, hk⟩ := (sym4_iff f).mp hf
    obtain ⟨l, l1, l2, hl⟩ := (sym4_iff g).mp hg
    rcases qr4_separated k1 k2 l1 l2 with e | e
    · left; funext w; rw [hk, hl, e]
    · right
      have h2 := Real.cos_two_mul (Real.pi / 8)
      rw [show 2 * (Real.pi / 8) = Real.pi / 4 by ring, Real.cos_pi_div_four] at h2
      rw [← h2, hk, hl, dot4, toQ4_ofQ4, toQ4_ofQ4]
      have : inner4 (quatmult4 (toQ4 v) (qr4 k)) (quatmult4 (toQ4 v) (qr4 l)) = quatmagsq4 (toQ4 v) * inner4 (qr4 k) (qr4 l) := by
        simp only [inner4, quatmult4, quatmagsq4]; ring
      rw [this, ← dot4_magsq, hv, one_mul]
      exact e

/-- **C76**: the same for two components, where the table has quarter turns and the bound is 45 degrees. -/
theorem c76_unique_below_45_plane (q1 q2 : QVec 2) (u1 : dot q1 q1 = 1) (u2 : dot q2 q2 = 1) (s : QVec 2 → QVec 2)
    (hs : Sym2 s) (h : Real.cos (Real.pi / 4) < dot q1 (s q2)) : UniqueNearest Sym2 q1 q2 := by
  refine unique_of_close table2 (Real.cos (Real.pi / 4)) ?_ ?_ q1 q2 u1 u2 s hs h
  · exact Real.cos_nonneg_of_neg_pi_div_two_le_of_le (by linarith [Real.pi_pos]) (by linarith [Real.pi_pos])
  · intro f g hf hg v hv
    have h2 := Real.cos_two_mul (Real.pi / 4)
    rw [show 2 * (Real.pi / 4) = Real.pi / 2 by ring, Real.cos_pi_div_two] at h2
    rw [← h2]
    obtain ⟨k, k1, k2, hk⟩ := (sym2_iff f).mp hf
    obtain ⟨l, l1, l2, hl⟩ := (sym2_iff g).mp hg
    have hq : v 0 * v 0 + v 1 * v 1 = 1 := by simpa [dot, Fin.sum_univ_two] using hv
    obtain ⟨v1, v2, v3, v4⟩ := qr2_val
    by_cases hkl : k = l
    · left; funext w; rw [hk, hl, hkl]
    · right
      rw [hk, hl]
      rcases index2 k1 k2 with rfl | rfl | rfl | rfl <;> rcases index2 l1 l2 with rfl | rfl | rfl | rfl <;>
        first
        | exact absurd rfl hkl
        | (simp only [v1, v2, v3, v4, dot, Fin.sum_univ_two, ofQ2, toQ2, quatmult2, Matrix.cons_val_zero, Matrix.cons_val_one]
           nlinarith)

/-! ## The hypotheses are met -/

/-- A bicrystal: one half of the plane holds `(1,0,0,0)`, the other half `(0.96, 0.28, 0, 0)`, 32.5 degrees away; the
relabelled field turns the copies of every second column. -/
example (P : CoefParams) (G : Grid) (i j : ℤ) :
    let q : QField 4 := fun i _ => if i < 0 then ![1, 0, 0, 0] else ![0.96, 0.28, 0, 0]
    let γ : ℤ → ℤ → QVec 4 → QVec 4 := fun i _ => if i % 2 = 0 then id else halfTurn
    evaluateQuatRHS true true true P G (symmRotX (fun i j => γ i j (q i j)) fun _ _ => 0)
        (symmRotY (fun i j => γ i j (q i j)) fun _ _ => 0) (fun i j => γ i j (q i j)) i j
      = (evaluateQuatRHS true true true P G (symmRotX q fun _ _ => 0) (symmRotY q fun _ _ => 0) q i j).map (γ i j) := by
  intro q γ
  have hq : ∀ i j, dot (q i j) (q i j) = 1 := by
    intro i j
    by_cases h : i < 0 <;> simp [q, h, dot, Fin.sum_univ_four] <;> norm_num
  have hc : Real.cos (Real.pi / 8) < 0.96 := by
    rw [Real.cos_pi_div_eight]
    have h2 : Real.sqrt 2 < 1.4143 := by
      rw [Real.sqrt_lt' (by norm_num)]; norm_num
    have : Real.sqrt (2 + Real.sqrt 2) < 1.92 := by
      rw [Real.sqrt_lt' (by norm_num)]
      norm_num at h2 ⊢
      linarith
    norm_num at this ⊢
    linarith
  have hu : ∀ a b : QVec 4, (a = ![1, 0, 0, 0] ∨ a = ![0.96, 0.28, 0, 0]) → (b = ![1, 0, 0, 0] ∨ b = ![0.96, 0.28, 0, 0]) →
      UniqueNearest Sym4 a b := by
    have c1 : Real.cos (Real.pi / 8) < 1 := lt_trans hc (by norm_num)
    rintro a b (rfl | rfl) (rfl | rfl) <;>
      refine c76_unique_below_45 _ _ ?_ ?_ id (table4.id_mem (by norm_num)) ?_ <;>
      simp [dot, Fin.sum_univ_four] <;> norm_num at hc c1 ⊢ <;> assumption
  have hv : ∀ i j, q i j = ![1, 0, 0, 0] ∨ q i j = ![0.96, 0.28, 0, 0] := by
    intro i j
    by_cases h : i < 0 <;> simp [q, h]
  refine c76_rate_covariant4 true P G q hq γ (fun i j => ?_) (fun i j => hu _ _ (hv i j) (hv (i - 1) j))
    (fun i j => hu _ _ (hv i j) (hv i (j - 1))) _ _ _ _ i j
  by_cases h : i % 2 = 0
  · simp only [γ, h, if_true]; exact table4.id_mem (by norm_num)
  · simp only [γ, h, if_false]; exact halfTurn_sym

/-- Accepted settings with a face coefficient that is not zero. -/
example : Accepted ⟨1, 2, 1, 'm', 'p', 'c', 'a'⟩ ∧
    faceCoef ⟨1, 2, 1, 'm', 'p', 'c', 'a'⟩ 1 1 3 3 (0 : QVec 4) 0 = some (-7) := by
  refine ⟨by simp [Accepted], ?_⟩
  simp [faceCoef, AMPE.Functions.averageFunc, AMPE.Functions.interpFunc, AMPE.Functions.clamp, evalGradNormi, acc_eq]
  norm_num

end AMPE.QuatFlow.Props
