import Verif.Props.QuatFlow
import Verif.Props.MultiOrder

/-! # C77: orientation relaxation lowers the gradient energy with the coefficients held fixed -/

namespace AMPE.QuatFlow.Props

open AMPE.QuatFlow AMPE.Flux AMPE.Tagging AMPE.Quat AMPE.Quat.Props AMPE.OrientSolve AMPE.OrientSolve.Props
open AMPE.PhaseRHS.Props

/-! ## Specification -/

/-- Specification: the field repeats with period `N`, `M` cells. -/
def Per {α : Type} (N M : ℕ) (F : ℤ → ℤ → α) : Prop := (∀ i j, F (i + N) j = F i j) ∧ ∀ i j, F i (j + M) = F i j

/-- Specification: sum over the cells of one period. -/
def cellSum (N M : ℕ) (lo0 lo1 : ℤ) (F : ℤ → ℤ → ℝ) : ℝ :=
  ∑ b ∈ Finset.range M, ∑ a ∈ Finset.range N, F (lo0 + (a : ℤ)) (lo1 + (b : ℤ))

/-- Specification: gradient energy per cell volume, `½ Σ_faces D |δq|² / h²`, where `δq` is the difference between a
cell's orientation and the copy (`Sx`, `Sy`) of its left and lower neighbours' orientations, and `D = -c` the face
diffusion coefficient. -/
noncomputable def gradEnergy {n : ℕ} (N M : ℕ) (lo0 lo1 : ℤ) (hx hy : ℝ) (cX cY : ℤ → ℤ → ℝ)
    (Sx Sy : ℤ → ℤ → QVec n → QVec n) (q : QField n) : ℝ :=
  cellSum N M lo0 lo1 fun i j =>
    1 / 2 * (-cX i j) * dsq (q i j) (Sx i j (q (i - 1) j)) / hx ^ 2
      + 1 / 2 * (-cY i j) * dsq (q i j) (Sy i j (q i (j - 1))) / hy ^ 2

/-! ## Periodic fields -/

section per

variable {α : Type} {N M : ℕ} {F : ℤ → ℤ → α} (h : Per N M F)

include h

theorem Per.a (i j : ℤ) : F (i + N) j = F i j := h.1 i j
theorem Per.b (i j : ℤ) : F i (j + M) = F i j := h.2 i j
theorem Per.al (i j : ℤ) : F (i + N - 1) j = F (i - 1) j := by rw [show i + (N : ℤ) - 1 = i - 1 + N by ring, h.1]
theorem Per.ar (i j : ℤ) : F (i + N + 1) j = F (i + 1) j := by rw [show i + (N : ℤ) + 1 = i + 1 + N by ring, h.1]
theorem Per.bl (i j : ℤ) : F i (j + M - 1) = F i (j - 1) := by rw [show j + (M : ℤ) - 1 = j - 1 + M by ring, h.2]
theorem Per.br (i j : ℤ) : F i (j + M + 1) = F i (j + 1) := by rw [show j + (M : ℤ) + 1 = j + 1 + M by ring, h.2]

end per

/-- Sums over a period do not notice a shift. -/
theorem cellSum_x (N M : ℕ) (lo0 lo1 : ℤ) (F : ℤ → ℤ → ℝ) (h : Per N M F) :
    cellSum N M lo0 lo1 (fun i j => F (i - 1) j) = cellSum N M lo0 lo1 F := by
  refine Finset.sum_congr rfl fun b _ => ?_
  have := sum_shift_neg N lo0 (fun i => F i (lo1 + b)) (fun i => h.1 i _) 1
  simpa using this

theorem cellSum_y (N M : ℕ) (lo0 lo1 : ℤ) (F : ℤ → ℤ → ℝ) (h : Per N M F) :
    cellSum N M lo0 lo1 (fun i j => F i (j - 1)) = cellSum N M lo0 lo1 F := by
  unfold cellSum
  rw [Finset.sum_comm]
  conv_rhs => rw [Finset.sum_comm]
  refine Finset.sum_congr rfl fun a _ => ?_
  have := sum_shift_neg M lo1 (fun j => F (lo0 + a) j) (fun j => h.2 _ j) 1
  simpa using this

theorem cellSum_add (N M : ℕ) (lo0 lo1 : ℤ) (F G : ℤ → ℤ → ℝ) :
    cellSum N M lo0 lo1 (fun i j => F i j + G i j) = cellSum N M lo0 lo1 F + cellSum N M lo0 lo1 G := by
  simp only [cellSum, Finset.sum_add_distrib]

/-! ## Affine rotations -/

/-- Rotations that add: `L` holds the linear parts of `R.x`, `R.y` and their adjoints. -/
structure Turn {n : ℕ} (R L : RotOps n) : Prop where
  x : ∀ i j v w, R.x i j (v + w) = R.x i j v + L.x i j w
  y : ∀ i j v w, R.y i j (v + w) = R.y i j v + L.y i j w
  sx : ∀ i j (t : ℝ) v, L.x i j (t • v) = t • L.x i j v
  sy : ∀ i j (t : ℝ) v, L.y i j (t • v) = t • L.y i j v
  ax : ∀ i j v w, dot (L.x i j v) w = dot v (L.xi i j w)
  ay : ∀ i j v w, dot (L.y i j v) w = dot v (L.yi i j w)
  lx : ∀ i j (t : ℝ) v, L.xi i j (t • v) = t • L.xi i j v
  ly : ∀ i j (t : ℝ) v, L.yi i j (t • v) = t • L.yi i j v

/-- The divergence the rate is built from. -/
noncomputable def driving {n : ℕ} (hx hy : ℝ) (cX cY : ℤ → ℤ → ℝ) (L : RotOps n) (sX sY : QField n) : QField n := fun i j =>
  (1 / hx ^ 2) • (cX (i + 1) j • L.xi (i + 1) j (sX (i + 1) j) - cX i j • sX i j)
    + (1 / hy ^ 2) • (cY i (j + 1) • L.yi i (j + 1) (sY i (j + 1)) - cY i j • sY i j)

theorem dot_sub {n : ℕ} (q v w : QVec n) : dot q (v - w) = dot q v - dot q w := by
  simp only [dot, Pi.sub_apply, mul_sub, Finset.sum_sub_distrib]

theorem dot_comm {n : ℕ} (v w : QVec n) : dot v w = dot w v := Finset.sum_congr rfl fun _ _ => mul_comm _ _

theorem add_dot {n : ℕ} (q v w : QVec n) : dot (v + w) q = dot v q + dot w q := by
  rw [dot_comm, dot_add, dot_comm q, dot_comm q]

theorem sub_dot {n : ℕ} (q v w : QVec n) : dot (v - w) q = dot v q - dot w q := by
  rw [dot_comm, dot_sub, dot_comm q, dot_comm q]

theorem smul_dot {n : ℕ} (c : ℝ) (q v : QVec n) : dot (c • v) q = c * dot v q := by
  rw [dot_comm, dot_smul, dot_comm q]

theorem dsq_eq_dot {n : ℕ} (a b : QVec n) : dsq a b = dot (a - b) (a - b) :=
  Finset.sum_congr rfl fun m _ => by simp only [Pi.sub_apply]; ring

theorem dsq_line {n : ℕ} (s w : QVec n) : HasDerivAt (fun t : ℝ => dot (s + t • w) (s + t • w)) (2 * dot s w) 0 := by
  have e : (fun t : ℝ => dot (s + t • w) (s + t • w)) = fun t => dot s s + t * (2 * dot s w) + t ^ 2 * dot w w := by
    funext t
    simp only [dot, Pi.add_apply, Pi.smul_apply, smul_eq_mul, Finset.mul_sum, ← Finset.sum_add_distrib]
    exact Finset.sum_congr rfl fun m _ => by ring
  rw [e]
  have h := ((hasDerivAt_id (0 : ℝ)).mul_const (2 * dot s w)).const_add (dot s s)
  have h2 := ((hasDerivAt_id (0 : ℝ)).pow 2).mul_const (dot w w)
  exact (h.add h2).congr_deriv (by simp)

section variation

variable {n : ℕ} {R L : RotOps n} (hT : Turn R L) {N M : ℕ} (lo0 lo1 : ℤ)

include hT

/-- Derivative of the energy in a periodic direction. -/
theorem energy_variation (hx hy : ℝ) (cX cY : ℤ → ℤ → ℝ) (q v : QField n) (pcX : Per N M cX) (pcY : Per N M cY)
    (pq : Per N M q) (pv : Per N M v) (px : Per N M R.x) (py : Per N M R.y) (pxi : Per N M L.xi) (pyi : Per N M L.yi) :
    HasDerivAt (fun t : ℝ => gradEnergy N M lo0 lo1 hx hy cX cY R.x R.y (fun i j => q i j + t • v i j))
      (cellSum N M lo0 lo1 fun i j => dot (driving hx hy cX cY L (qdiffX R.x q) (qdiffY R.y q) i j) (v i j)) 0 := by
  set sX := qdiffX R.x q with hsX
  set sY := qdiffY R.y q with hsY
  have psX : Per N M sX := by
    refine ⟨fun i j => ?_, fun i j => ?_⟩ <;> simp only [sX, qdiffX, pq.a, pq.b, pq.al, px.a, px.b]
  have psY : Per N M sY := by
    refine ⟨fun i j => ?_, fun i j => ?_⟩ <;> simp only [sY, qdiffY, pq.a, pq.b, pq.bl, py.a, py.b]
  have ex : ∀ (t : ℝ) i j, dsq (q i j + t • v i j) (R.x i j (q (i - 1) j + t • v (i - 1) j))
      = dot (sX i j + t • (v i j - L.x i j (v (i - 1) j))) (sX i j + t • (v i j - L.x i j (v (i - 1) j))) := by
    intro t i j
    rw [dsq_eq_dot, hT.x, hT.sx]
    have : q i j + t • v i j - (R.x i j (q (i - 1) j) + t • L.x i j (v (i - 1) j))
        = sX i j + t • (v i j - L.x i j (v (i - 1) j)) := by
      funext m; simp only [sX, qdiffX, Pi.add_apply, Pi.sub_apply, Pi.smul_apply, smul_eq_mul]; ring
    rw [this]
  have ey : ∀ (t : ℝ) i j, dsq (q i j + t • v i j) (R.y i j (q i (j - 1) + t • v i (j - 1)))
      = dot (sY i j + t • (v i j - L.y i j (v i (j - 1)))) (sY i j + t • (v i j - L.y i j (v i (j - 1)))) := by
    intro t i j
    rw [dsq_eq_dot, hT.y, hT.sy]
    have : q i j + t • v i j - (R.y i j (q i (j - 1)) + t • L.y i j (v i (j - 1)))
        = sY i j + t • (v i j - L.y i j (v i (j - 1))) := by
      funext m; simp only [sY, qdiffY, Pi.add_apply, Pi.sub_apply, Pi.smul_apply, smul_eq_mul]; ring
    rw [this]
  have cell : ∀ i j, HasDerivAt (fun t : ℝ =>
      1 / 2 * (-cX i j) * dsq (q i j + t • v i j) (R.x i j (q (i - 1) j + t • v (i - 1) j)) / hx ^ 2
      + 1 / 2 * (-cY i j) * dsq (q i j + t • v i j) (R.y i j (q i (j - 1) + t • v i (j - 1))) / hy ^ 2)
      ((-(cX i j / hx ^ 2 * dot (sX i j) (v i j)) - cY i j / hy ^ 2 * dot (sY i j) (v i j))
        + (cX i j / hx ^ 2 * dot (L.xi i j (sX i j)) (v (i - 1) j)
        + cY i j / hy ^ 2 * dot (L.yi i j (sY i j)) (v i (j - 1)))) 0 := by
    intro i j
    simp only [ex, ey]
    have h1 := (((dsq_line (sX i j) (v i j - L.x i j (v (i - 1) j))).const_mul (1 / 2 * (-cX i j))).div_const (hx ^ 2))
    have h2 := (((dsq_line (sY i j) (v i j - L.y i j (v i (j - 1)))).const_mul (1 / 2 * (-cY i j))).div_const (hy ^ 2))
    refine (h1.add h2).congr_deriv ?_
    rw [dot_sub, dot_sub, dot_comm (sX i j) (L.x i j _), dot_comm (sY i j) (L.y i j _), hT.ax, hT.ay,
      dot_comm (v (i - 1) j), dot_comm (v i (j - 1))]
    ring
  have total : HasDerivAt (fun t : ℝ => gradEnergy N M lo0 lo1 hx hy cX cY R.x R.y (fun i j => q i j + t • v i j))
      (cellSum N M lo0 lo1 fun i j => (-(cX i j / hx ^ 2 * dot (sX i j) (v i j)) - cY i j / hy ^ 2 * dot (sY i j) (v i j))
        + (cX i j / hx ^ 2 * dot (L.xi i j (sX i j)) (v (i - 1) j)
        + cY i j / hy ^ 2 * dot (L.yi i j (sY i j)) (v i (j - 1)))) 0 := by
    unfold gradEnergy cellSum
    exact HasDerivAt.fun_sum fun b _ => HasDerivAt.fun_sum fun a _ => cell (lo0 + (a : ℤ)) (lo1 + (b : ℤ))
  refine total.congr_deriv ?_
  rw [cellSum_add, cellSum_add]
  have s1 := cellSum_x N M lo0 lo1 (fun i j => cX (i + 1) j / hx ^ 2 * dot (L.xi (i + 1) j (sX (i + 1) j)) (v i j)) (by
    refine ⟨fun i j => ?_, fun i j => ?_⟩ <;>
      simp only [pcX.a, pcX.b, pcX.ar, pxi.a, pxi.b, pxi.ar, psX.a, psX.b, psX.ar, pv.a, pv.b])
  have s2 := cellSum_y N M lo0 lo1 (fun i j => cY i (j + 1) / hy ^ 2 * dot (L.yi i (j + 1) (sY i (j + 1))) (v i j)) (by
    refine ⟨fun i j => ?_, fun i j => ?_⟩ <;>
      simp only [pcY.a, pcY.b, pcY.br, pyi.a, pyi.b, pyi.br, psY.a, psY.b, psY.br, pv.a, pv.b])
  simp only [sub_add_cancel] at s1 s2
  rw [s1, s2, ← cellSum_add, ← cellSum_add]
  refine Finset.sum_congr rfl fun b _ => Finset.sum_congr rfl fun a _ => ?_
  simp only [driving]
  rw [add_dot, smul_dot, smul_dot, sub_dot, sub_dot, smul_dot, smul_dot, smul_dot, smul_dot]
  ring

/-- A rate along the negative (projected) driving force lowers the energy. -/
theorem energy_rate (hx hy : ℝ) (cX cY mob : ℤ → ℤ → ℝ) (q A : QField n) (pcX : Per N M cX) (pcY : Per N M cY)
    (pq : Per N M q) (pA : Per N M A) (pm : Per N M mob) (px : Per N M R.x) (py : Per N M R.y) (pxi : Per N M L.xi)
    (pyi : Per N M L.yi) (hm : ∀ i j, mob i j ≠ 0)
    (hA : ∀ i j, dot (driving hx hy cX cY L (qdiffX R.x q) (qdiffY R.y q) i j) (A i j) = dot (A i j) (A i j)) :
    HasDerivAt (fun t : ℝ => gradEnergy N M lo0 lo1 hx hy cX cY R.x R.y (fun i j => q i j + t • ((-mob i j) • A i j)))
      (-cellSum N M lo0 lo1 fun i j => dot ((-mob i j) • A i j) ((-mob i j) • A i j) / mob i j) 0 := by
  refine (energy_variation hT lo0 lo1 hx hy cX cY q (fun i j => (-mob i j) • A i j) pcX pcY pq
    ⟨fun i j => by simp only [pm.a, pA.a], fun i j => by simp only [pm.b, pA.b]⟩ px py pxi pyi).congr_deriv ?_
  unfold cellSum
  rw [← Finset.sum_neg_distrib]
  refine Finset.sum_congr rfl fun b _ => ?_
  rw [← Finset.sum_neg_distrib]
  refine Finset.sum_congr rfl fun a _ => ?_
  have := hm (lo0 + (a : ℤ)) (lo1 + (b : ℤ))
  beta_reduce
  rw [dot_smul, hA, smul_dot, dot_smul]
  field_simp

end variation

/-! ## The rate -/

theorem tangent_dot {n : ℕ} (q v : QVec n) (hq : dot q q ≠ 0) : dot v (tangent q v) = dot (tangent q v) (tangent q v) := by
  have h : dot q (tangent q v) = 0 := by
    rw [tangent, dot_sub, dot_smul]; field_simp; ring
  nth_rewrite 2 [tangent]
  rw [sub_dot, smul_dot, h]; ring

section rate

variable {n : ℕ} {N M : ℕ}

/-- Periodic data give periodic gradients and coefficients. -/
theorem per_coef (P : CoefParams) (G : Grid) (R : RotOps n) (sX sY nX nY : QField n) (pphi : Per N M G.phi) (pt : Per N M G.temp)
    (px : Per N M R.x) (py : Per N M R.y) (pxi : Per N M R.xi) (pyi : Per N M R.yi) (psX : Per N M sX) (psY : Per N M sY) :
    Per N M (coefX P G (sideGrad false G.hx G.hy R sX sY nX nY)) ∧
    Per N M (coefY P G (sideGrad false G.hx G.hy R sX sY nX nY)) := by
  have e : ∀ i j : ℤ, i + (N : ℤ) - 1 + 1 = i + N := fun i j => by ring
  refine ⟨⟨fun i j => ?_, fun i j => ?_⟩, ⟨fun i j => ?_, fun i j => ?_⟩⟩
  all_goals
    have p1 : Per N M (fun i j => sY i (j + 1)) := ⟨fun i j => by simp only [psY.a], fun i j => by simp only [psY.br]⟩
    have p2 : Per N M (fun i j => R.yi i (j + 1)) := ⟨fun i j => by simp only [pyi.a], fun i j => by simp only [pyi.br]⟩
    have p3 : Per N M (fun i j => sX (i + 1) j) := ⟨fun i j => by simp only [psX.ar], fun i j => by simp only [psX.b]⟩
    have p4 : Per N M (fun i j => R.xi (i + 1) j) := ⟨fun i j => by simp only [pxi.ar], fun i j => by simp only [pxi.b]⟩
    have a1 : ∀ i j, sY (i + N - 1) (j + 1) = sY (i - 1) (j + 1) := fun i j => p1.al i j
    have a2 : ∀ i j, R.yi (i + N - 1) (j + 1) = R.yi (i - 1) (j + 1) := fun i j => p2.al i j
    have a3 : ∀ i j, sX (i + 1) (j + M - 1) = sX (i + 1) (j - 1) := fun i j => p3.bl i j
    have a4 : ∀ i j, R.xi (i + 1) (j + M - 1) = R.xi (i + 1) (j - 1) := fun i j => p4.bl i j
    have b1 : ∀ i j, sY (i - 1) (j + M + 1) = sY (i - 1) (j + 1) := fun i j => psY.br _ j
    have b3 : ∀ i j, sX (i + N + 1) (j - 1) = sX (i + 1) (j - 1) := fun i j => psX.ar i _
    have c1 : sideGrad false G.hx G.hy R sX sY nX nY = ⟨gXX G.hx sX, gYX G.hy R sY, gXY G.hx R sX, gYY G.hy sY⟩ := rfl
    simp only [coefX, coefY, c1]
    congr 1
    all_goals first
      | simp only [pphi.a, pphi.b, pphi.al, pphi.bl]; done
      | simp only [pt.a, pt.b, pt.al, pt.bl]; done
      | (funext m
         simp only [gXX, gYX, gXY, gYY, psX.a, psX.b, psX.al, psX.bl, psX.ar, psX.br, psY.a, psY.b, psY.al, psY.bl, psY.ar,
           psY.br, px.a, px.b, py.a, py.b, pxi.a, pxi.b, pxi.ar, pxi.br, pyi.a, pyi.b, pyi.ar, pyi.br, a1, a2, a3, a4])

theorem coef_fields (P : CoefParams) (hP : Accepted P) (G : Grid) (g : SideGrad n) (h1 : Per N M (coefX P G g))
    (h2 : Per N M (coefY P G g)) :
    ∃ cX cY : ℤ → ℤ → ℝ, (∀ i j, coefX P G g i j = some (cX i j)) ∧ (∀ i j, coefY P G g i j = some (cY i j)) ∧
      Per N M cX ∧ Per N M cY := by
  have e1 : ∀ i j, coefX P G g i j = some ((coefX P G g i j).getD 0) := by
    intro i j
    obtain ⟨c, hc⟩ : ∃ c, coefX P G g i j = some c := faceCoef_defined P hP _ _ _ _ _ _
    rw [hc]; rfl
  have e2 : ∀ i j, coefY P G g i j = some ((coefY P G g i j).getD 0) := by
    intro i j
    obtain ⟨c, hc⟩ : ∃ c, coefY P G g i j = some c := faceCoef_defined P hP _ _ _ _ _ _
    rw [hc]; rfl
  exact ⟨_, _, e1, e2, ⟨fun i j => by simp only [h1.a], fun i j => by simp only [h1.b]⟩,
    ⟨fun i j => by simp only [h2.a], fun i j => by simp only [h2.b]⟩⟩

/-- The evaluation in terms of the driving force, more than one component. -/
theorem eval_projected (hn : 1 < n) (symm useDiffs : Bool) (hsu : symm = true → useDiffs = true) (P : CoefParams) (G : Grid)
    (kx ky : ℤ → ℤ → ℤ) (q : QField n) (R : RotOps n) (hR : R = if symm then RotOps.ofIndices n kx ky else RotOps.plain n)
    (lx : ∀ i j (t : ℝ) v, R.xi i j (t • v) = t • R.xi i j v) (ly : ∀ i j (t : ℝ) v, R.yi i j (t • v) = t • R.yi i j v)
    (cX cY : ℤ → ℤ → ℝ)
    (hX : ∀ i j, coefX P G (sideGrad false G.hx G.hy R (qdiffX R.x q) (qdiffY R.y q) (qdiffX (fun _ _ => id) q)
      (qdiffY (fun _ _ => id) q)) i j = some (cX i j))
    (hY : ∀ i j, coefY P G (sideGrad false G.hx G.hy R (qdiffX R.x q) (qdiffY R.y q) (qdiffX (fun _ _ => id) q)
      (qdiffY (fun _ _ => id) q)) i j = some (cY i j)) (i j : ℤ) (hq : dot (q i j) (q i j) ≠ 0) :
    evaluateQuatRHS symm useDiffs false P G kx ky q i j
      = some ((-G.mob i j) • tangent (q i j) (driving G.hx G.hy cX cY R (qdiffX R.x q) (qdiffY R.y q) i j)) := by
  have hd : (if (symm && useDiffs) = true then R else RotOps.plain n) = R := by
    cases symm
    · rw [hR]; rfl
    · rw [hsu rfl]; rfl
  have hno : (symm && !useDiffs) = false := by
    cases symm
    · rfl
    · rw [hsu rfl]; rfl
  simp only [evaluateQuatRHS, ← hR, hd, hno, forGrad_of_ne hn]
  simp only [show (RotOps.plain n).x = fun _ _ => id from rfl, show (RotOps.plain n).y = fun _ _ => id from rfl, hX, hY,
    Option.bind_eq_bind, Option.bind_some, Bool.false_eq_true, if_false]
  rw [cellRate_eq (by omega) _ _ _ _ _ _ _ _ _ _ hq]
  simp only [Option.bind_some, Option.some.injEq]
  congr 2
  have gx : ∀ a b, (sideGrad false G.hx G.hy R (qdiffX R.x q) (qdiffY R.y q) (qdiffX (fun _ _ => id) q)
      (qdiffY (fun _ _ => id) q)).xx a b = (1 / G.hx) • qdiffX R.x q a b := fun _ _ => rfl
  have gy : ∀ a b, (sideGrad false G.hx G.hy R (qdiffX R.x q) (qdiffY R.y q) (qdiffX (fun _ _ => id) q)
      (qdiffY (fun _ _ => id) q)).yy a b = (1 / G.hy) • qdiffY R.y q a b := fun _ _ => rfl
  have hf : ∀ (c : ℝ) (v : QVec n), flux c v = c • v := fun _ _ => rfl
  simp only [gx, gy, hf, lx, ly, if_true, show ¬ (i + 1 = i) by omega, show ¬ (j + 1 = j) by omega, if_false]
  funext m
  simp only [driving, Pi.add_apply, Pi.smul_apply, Pi.sub_apply, smul_eq_mul]
  ring

/-- One component. -/
theorem eval_angle (symm useDiffs : Bool) (hsu : symm = true → useDiffs = true) (P : CoefParams) (G : Grid)
    (kx ky : ℤ → ℤ → ℤ) (q : QField 1) (R : RotOps 1) (hR : R = if symm then RotOps.ofIndices 1 kx ky else RotOps.plain 1)
    (cX cY : ℤ → ℤ → ℝ)
    (hX : ∀ i j, coefX P G (sideGrad false G.hx G.hy (RotOps.plain 1) (qdiffX R.x q) (qdiffY R.y q) (qdiffX (fun _ _ => id) q)
      (qdiffY (fun _ _ => id) q)) i j = some (cX i j))
    (hY : ∀ i j, coefY P G (sideGrad false G.hx G.hy (RotOps.plain 1) (qdiffX R.x q) (qdiffY R.y q) (qdiffX (fun _ _ => id) q)
      (qdiffY (fun _ _ => id) q)) i j = some (cY i j)) (i j : ℤ) :
    evaluateQuatRHS symm useDiffs false P G kx ky q i j
      = some ((-G.mob i j) • driving G.hx G.hy cX cY (RotOps.plain 1) (qdiffX R.x q) (qdiffY R.y q) i j) := by
  have hno : (symm && !useDiffs) = false := by
    cases symm
    · rfl
    · rw [hsu rfl]; rfl
  have hg : R.forGrad = RotOps.plain 1 := by simp [RotOps.forGrad]
  simp only [evaluateQuatRHS, ← hR, hno, hg]
  simp only [show (RotOps.plain 1).x = fun _ _ => id from rfl, show (RotOps.plain 1).y = fun _ _ => id from rfl, hX, hY,
    Option.bind_eq_bind, Option.bind_some, Bool.false_eq_true, if_false]
  simp only [cellRate, if_true, Option.bind_some, Option.some.injEq, show ¬ (i + 1 = i) by omega, show ¬ (j + 1 = j) by omega,
    if_false]
  have gx : ∀ a b, (sideGrad false G.hx G.hy (RotOps.plain 1) (qdiffX R.x q) (qdiffY R.y q) (qdiffX (fun _ _ => id) q)
      (qdiffY (fun _ _ => id) q)).xx a b = (1 / G.hx) • qdiffX R.x q a b := fun _ _ => rfl
  have gy : ∀ a b, (sideGrad false G.hx G.hy (RotOps.plain 1) (qdiffX R.x q) (qdiffY R.y q) (qdiffX (fun _ _ => id) q)
      (qdiffY (fun _ _ => id) q)).yy a b = (1 / G.hy) • qdiffY R.y q a b := fun _ _ => rfl
  simp only [gx, gy]
  funext m
  simp only [plainOp, flux, driving, RotOps.plain, id, Pi.add_apply, Pi.smul_apply, Pi.sub_apply, smul_eq_mul]
  ring

end rate

/-- Specification: the rate of the program lowers the gradient energy taken with the program's own face coefficients, at
the exact speed `Σ |rate|² / mobility`. `R` holds the rotations of the differences, `Rg` those of the gradients. -/
def Dissipates {n : ℕ} (N M : ℕ) (lo0 lo1 : ℤ) (symm useDiffs : Bool) (P : CoefParams) (G : Grid) (kx ky : ℤ → ℤ → ℤ)
    (q : QField n) (R Rg : RotOps n) : Prop :=
  ∃ (cX cY : ℤ → ℤ → ℝ) (rate : QField n),
    (∀ i j, coefX P G (sideGrad false G.hx G.hy Rg (qdiffX R.x q) (qdiffY R.y q) (qdiffX (fun _ _ => id) q)
      (qdiffY (fun _ _ => id) q)) i j = some (cX i j)) ∧
    (∀ i j, coefY P G (sideGrad false G.hx G.hy Rg (qdiffX R.x q) (qdiffY R.y q) (qdiffX (fun _ _ => id) q)
      (qdiffY (fun _ _ => id) q)) i j = some (cY i j)) ∧
    (∀ i j, evaluateQuatRHS symm useDiffs false P G kx ky q i j = some (rate i j)) ∧
    HasDerivAt (fun t : ℝ => gradEnergy N M lo0 lo1 G.hx G.hy cX cY R.x R.y (fun i j => q i j + t • rate i j))
      (-cellSum N M lo0 lo1 fun i j => dot (rate i j) (rate i j) / G.mob i j) 0

theorem driving_per {n N M : ℕ} (hx hy : ℝ) (cX cY : ℤ → ℤ → ℝ) (L : RotOps n) (sX sY : QField n) (pcX : Per N M cX)
    (pcY : Per N M cY) (pxi : Per N M L.xi) (pyi : Per N M L.yi) (psX : Per N M sX) (psY : Per N M sY) :
    Per N M (driving hx hy cX cY L sX sY) := by
  refine ⟨fun i j => ?_, fun i j => ?_⟩ <;>
    simp only [driving, pcX.a, pcX.b, pcX.ar, pcY.a, pcY.b, pcY.br, pxi.a, pxi.b, pxi.ar, pyi.a, pyi.b, pyi.br, psX.a, psX.b,
      psX.ar, psY.a, psY.b, psY.br]

theorem qdiff_per {n N M : ℕ} (R : RotOps n) (q : QField n) (pq : Per N M q) (px : Per N M R.x) (py : Per N M R.y) :
    Per N M (qdiffX R.x q) ∧ Per N M (qdiffY R.y q) := by
  refine ⟨⟨fun i j => ?_, fun i j => ?_⟩, fun i j => ?_, fun i j => ?_⟩ <;>
    simp only [qdiffX, qdiffY, pq.a, pq.b, pq.al, pq.bl, px.a, px.b, py.a, py.b]

/-- More than one component. -/
theorem dissipates_of_turn {n : ℕ} (hn : 1 < n) (N M : ℕ) (lo0 lo1 : ℤ) (symm useDiffs : Bool)
    (hsu : symm = true → useDiffs = true) (P : CoefParams) (hP : Accepted P) (G : Grid) (kx ky : ℤ → ℤ → ℤ) (q : QField n)
    (R : RotOps n) (hR : R = if symm then RotOps.ofIndices n kx ky else RotOps.plain n) (hT : Turn R R)
    (hq : ∀ i j, dot (q i j) (q i j) ≠ 0) (hm : ∀ i j, G.mob i j ≠ 0) (pq : Per N M q) (pphi : Per N M G.phi)
    (pt : Per N M G.temp) (pm : Per N M G.mob) (px : Per N M R.x) (py : Per N M R.y) (pxi : Per N M R.xi)
    (pyi : Per N M R.yi) : Dissipates N M lo0 lo1 symm useDiffs P G kx ky q R R := by
  obtain ⟨psX, psY⟩ := qdiff_per R q pq px py
  obtain ⟨p1, p2⟩ := per_coef P G R (qdiffX R.x q) (qdiffY R.y q) (qdiffX (fun _ _ => id) q) (qdiffY (fun _ _ => id) q)
    pphi pt px py pxi pyi psX psY
  obtain ⟨cX, cY, hX, hY, pcX, pcY⟩ := coef_fields P hP G _ p1 p2
  have pD := driving_per G.hx G.hy cX cY R _ _ pcX pcY pxi pyi psX psY
  refine ⟨cX, cY, fun i j => (-G.mob i j) • tangent (q i j) (driving G.hx G.hy cX cY R (qdiffX R.x q) (qdiffY R.y q) i j),
    hX, hY, fun i j => eval_projected hn symm useDiffs hsu P G kx ky q R hR hT.lx hT.ly cX cY hX hY i j (hq i j), ?_⟩
  exact energy_rate hT lo0 lo1 G.hx G.hy cX cY G.mob q
    (fun i j => tangent (q i j) (driving G.hx G.hy cX cY R (qdiffX R.x q) (qdiffY R.y q) i j)) pcX pcY pq
    ⟨fun i j => by simp only [pq.a, pD.a], fun i j => by simp only [pq.b, pD.b]⟩ pm px py pxi pyi hm
    (fun i j => tangent_dot _ _ (hq i j))

theorem turn_plain (n : ℕ) : Turn (RotOps.plain n) (RotOps.plain n) :=
  ⟨fun _ _ _ _ => rfl, fun _ _ _ _ => rfl, fun _ _ _ _ => rfl, fun _ _ _ _ => rfl, fun _ _ _ _ => rfl, fun _ _ _ _ => rfl,
    fun _ _ _ _ => rfl, fun _ _ _ _ => rfl⟩

theorem turn_table {n : ℕ} {N : ℤ} {Sym : (QVec n → QVec n) → Prop} (T : Table n N Sym) (kx ky : ℤ → ℤ → ℤ)
    (hx : ∀ i j, 1 ≤ kx i j ∧ kx i j ≤ N) (hy : ∀ i j, 1 ≤ ky i j ∧ ky i j ≤ N) :
    Turn (RotOps.ofIndices n kx ky) (RotOps.ofIndices n kx ky) := by
  have l : ∀ k, 1 ≤ k ∧ k ≤ N → LinIso (rotBy k : QVec n → QVec n) ∧ LinIso (rotBy (-1 * k) : QVec n → QVec n) ∧
      ∀ v w : QVec n, dot (rotBy k v) w = dot v (rotBy (-1 * k) w) := by
    intro k hk
    have h1 := T.iso _ (T.sym k hk.1 hk.2)
    obtain ⟨b1, -, b3⟩ := T.back k hk.1 hk.2
    refine ⟨h1, T.iso _ b1, fun v w => ?_⟩
    have := h1.dot v (rotBy (-1 * k) w)
    rwa [b3] at this
  exact ⟨fun i j v w => (l _ (hx i j)).1.add v w, fun i j v w => (l _ (hy i j)).1.add v w,
    fun i j t v => (l _ (hx i j)).1.smul t v, fun i j t v => (l _ (hy i j)).1.smul t v,
    fun i j v w => (l _ (hx i j)).2.2 v w, fun i j v w => (l _ (hy i j)).2.2 v w,
    fun i j t v => (l _ (hx i j)).2.1.smul t v, fun i j t v => (l _ (hy i j)).2.1.smul t v⟩

theorem ofIndices_per {n N M : ℕ} (kx ky : ℤ → ℤ → ℤ) (px : Per N M kx) (py : Per N M ky) :
    Per N M (RotOps.ofIndices n kx ky).x ∧ Per N M (RotOps.ofIndices n kx ky).y ∧ Per N M (RotOps.ofIndices n kx ky).xi ∧
      Per N M (RotOps.ofIndices n kx ky).yi := by
  refine ⟨⟨fun i j => ?_, fun i j => ?_⟩, ⟨fun i j => ?_, fun i j => ?_⟩, ⟨fun i j => ?_, fun i j => ?_⟩,
    ⟨fun i j => ?_, fun i j => ?_⟩⟩ <;> simp only [RotOps.ofIndices, px.a, px.b, py.a, py.b]

theorem plain_per {n N M : ℕ} : Per N M (RotOps.plain n).x ∧ Per N M (RotOps.plain n).y ∧ Per N M (RotOps.plain n).xi ∧
    Per N M (RotOps.plain n).yi := by
  refine ⟨⟨fun i j => ?_, fun i j => ?_⟩, ⟨fun i j => ?_, fun i j => ?_⟩, ⟨fun i j => ?_, fun i j => ?_⟩,
    ⟨fun i j => ?_, fun i j => ?_⟩⟩ <;> rfl

/-- **C77** (quaternions with symmetry, fluxes from differences): on a periodic domain, for every valid rotation index
array. -/
theorem c77_dissipates4 (N M : ℕ) (lo0 lo1 : ℤ) (P : CoefParams) (hP : Accepted P) (G : Grid) (kx ky : ℤ → ℤ → ℤ)
    (hx : ∀ i j, 1 ≤ kx i j ∧ kx i j ≤ 48) (hy : ∀ i j, 1 ≤ ky i j ∧ ky i j ≤ 48) (q : QField 4)
    (hq : ∀ i j, q i j ≠ 0) (hm : ∀ i j, G.mob i j ≠ 0) (pq : Per N M q) (pphi : Per N M G.phi) (pt : Per N M G.temp)
    (pm : Per N M G.mob) (pkx : Per N M kx) (pky : Per N M ky) :
    Dissipates N M lo0 lo1 true true P G kx ky q (RotOps.ofIndices 4 kx ky) (RotOps.ofIndices 4 kx ky) := by
  obtain ⟨a, b, c, d⟩ := ofIndices_per (n := 4) kx ky pkx pky
  exact dissipates_of_turn (by norm_num) N M lo0 lo1 true true (fun _ => rfl) P hP G kx ky q _ rfl
    (turn_table table4 kx ky hx hy) (fun i j => (dot_self_pos _ (hq i j)).ne') hm pq pphi pt pm a b c d

/-- **C77** (two components with symmetry, fluxes from differences). -/
theorem c77_dissipates2 (N M : ℕ) (lo0 lo1 : ℤ) (P : CoefParams) (hP : Accepted P) (G : Grid) (kx ky : ℤ → ℤ → ℤ)
    (hx : ∀ i j, 1 ≤ kx i j ∧ kx i j ≤ 4) (hy : ∀ i j, 1 ≤ ky i j ∧ ky i j ≤ 4) (q : QField 2)
    (hq : ∀ i j, q i j ≠ 0) (hm : ∀ i j, G.mob i j ≠ 0) (pq : Per N M q) (pphi : Per N M G.phi) (pt : Per N M G.temp)
    (pm : Per N M G.mob) (pkx : Per N M kx) (pky : Per N M ky) :
    Dissipates N M lo0 lo1 true true P G kx ky q (RotOps.ofIndices 2 kx ky) (RotOps.ofIndices 2 kx ky) := by
  obtain ⟨a, b, c, d⟩ := ofIndices_per (n := 2) kx ky pkx pky
  exact dissipates_of_turn (by norm_num) N M lo0 lo1 true true (fun _ => rfl) P hP G kx ky q _ rfl
    (turn_table table2 kx ky hx hy) (fun i j => (dot_self_pos _ (hq i j)).ne') hm pq pphi pt pm a b c d

/-- **C77** (any number of components above one, no symmetry). -/
theorem c77_dissipates_plain {n : ℕ} (hn : 1 < n) (N M : ℕ) (lo0 lo1 : ℤ) (useDiffs : Bool) (P : CoefParams) (hP : Accepted P)
    (G : Grid) (kx ky : ℤ → ℤ → ℤ) (q : QField n) (hq : ∀ i j, q i j ≠ 0) (hm : ∀ i j, G.mob i j ≠ 0) (pq : Per N M q)
    (pphi : Per N M G.phi) (pt : Per N M G.temp) (pm : Per N M G.mob) :
    Dissipates N M lo0 lo1 false useDiffs P G kx ky q (RotOps.plain n) (RotOps.plain n) := by
  obtain ⟨a, b, c, d⟩ := plain_per (n := n) (N := N) (M := M)
  exact dissipates_of_turn hn N M lo0 lo1 false useDiffs (fun h => by cases h) P hP G kx ky q _ rfl
    (turn_plain n) (fun i j => (dot_self_pos _ (hq i j)).ne') hm pq pphi pt pm a b c d

theorem rotBy1 (k : ℤ) (h1 : 1 ≤ k) (h2 : k ≤ 9) : ∃ c : QVec 1, ∀ v : QVec 1, rotBy k v = v + c := by
  have hc : checkIndex 9 conj1 k = some k := by
    unfold checkIndex; rw [if_neg (by omega), if_neg (by omega)]
  refine ⟨fun _ => qr1 k, fun v => ?_⟩
  funext m
  rw [Subsingleton.elim m 0]
  simp [rotBy, quatsymmrotate, quatsymmrotate1, hc]

/-- **C77** (one angle, with or without symmetry; with symmetry, fluxes from differences). -/
theorem c77_dissipates_angle (N M : ℕ) (lo0 lo1 : ℤ) (symm useDiffs : Bool) (hsu : symm = true → useDiffs = true)
    (P : CoefParams) (hP : Accepted P) (G : Grid) (kx ky : ℤ → ℤ → ℤ) (hx : ∀ i j, 1 ≤ kx i j ∧ kx i j ≤ 9)
    (hy : ∀ i j, 1 ≤ ky i j ∧ ky i j ≤ 9) (q : QField 1) (hm : ∀ i j, G.mob i j ≠ 0) (pq : Per N M q)
    (pphi : Per N M G.phi) (pt : Per N M G.temp) (pm : Per N M G.mob) (pkx : Per N M kx) (pky : Per N M ky) :
    Dissipates N M lo0 lo1 symm useDiffs P G kx ky q (if symm then RotOps.ofIndices 1 kx ky else RotOps.plain 1)
      (RotOps.plain 1) := by
  set R := if symm then RotOps.ofIndices 1 kx ky else RotOps.plain 1 with hR
  obtain ⟨a, b, c, d⟩ := plain_per (n := 1) (N := N) (M := M)
  have hp : Per N M R.x ∧ Per N M R.y := by
    cases symm
    · exact ⟨a, b⟩
    · obtain ⟨a, b, -, -⟩ := ofIndices_per (n := 1) kx ky pkx pky
      exact ⟨a, b⟩
  have hT : Turn R (RotOps.plain 1) := by
    refine ⟨?_, ?_, fun _ _ _ _ => rfl, fun _ _ _ _ => rfl, fun _ _ _ _ => rfl, fun _ _ _ _ => rfl, fun _ _ _ _ => rfl,
      fun _ _ _ _ => rfl⟩
    · intro i j v w
      cases symm
      · rfl
      · obtain ⟨c, h⟩ := rotBy1 _ (hx i j).1 (hx i j).2
        simp only [hR, if_true, RotOps.ofIndices, RotOps.plain, id, h]
        exact add_right_comm v w c
    · intro i j v w
      cases symm
      · rfl
      · obtain ⟨c, h⟩ := rotBy1 _ (hy i j).1 (hy i j).2
        simp only [hR, if_true, RotOps.ofIndices, RotOps.plain, id, h]
        exact add_right_comm v w c
  obtain ⟨psX, psY⟩ := qdiff_per R q pq hp.1 hp.2
  obtain ⟨p1, p2⟩ := per_coef P G (RotOps.plain 1) (qdiffX R.x q) (qdiffY R.y q) (qdiffX (fun _ _ => id) q)
    (qdiffY (fun _ _ => id) q) pphi pt a b c d psX psY
  obtain ⟨cX, cY, hX, hY, pcX, pcY⟩ := coef_fields P hP G _ p1 p2
  have pD := driving_per G.hx G.hy cX cY (RotOps.plain 1) _ _ pcX pcY c d psX psY
  exact ⟨cX, cY, fun i j => (-G.mob i j) • driving G.hx G.hy cX cY (RotOps.plain 1) (qdiffX R.x q) (qdiffY R.y q) i j,
    hX, hY, fun i j => eval_angle symm useDiffs hsu P G kx ky q R hR cX cY hX hY i j,
    energy_rate hT lo0 lo1 G.hx G.hy cX cY G.mob q _ pcX pcY pq pD pm hp.1 hp.2 c d hm fun i j => rfl⟩

/-! ## Sign -/

theorem interp_nonneg (t : Char) (h : t ∈ ['q', 'p', 'h', 'w', 'l', 'm', '3', 's', 'c']) (x v : ℝ) (h0 : 0 ≤ x) (h1 : x ≤ 1)
    (hv : AMPE.Functions.interpFunc t x = some v) : 0 ≤ v := by
  by_cases hc : t = 'c'
  · subst hc
    simp [AMPE.Functions.interpFunc] at hv
    rw [← hv]; norm_num
  · refine (AMPE.Functions.Props.c10_range t ?_ x v h0 h1 hv).1
    simp only [AMPE.Functions.Props.proper, List.mem_cons, List.not_mem_nil, or_false] at h ⊢
    tauto

theorem average_range (t : Char) (h : t ∈ ['a', 'h']) (x y v : ℝ) (hx : 0 ≤ x) (hx1 : x ≤ 1) (hy : 0 ≤ y) (hy1 : y ≤ 1)
    (hv : AMPE.Functions.averageFunc t x y = some v) : 0 ≤ v ∧ v ≤ 1 := by
  simp only [List.mem_cons, List.not_mem_nil, or_false] at h
  rcases h with rfl | rfl
  · simp [AMPE.Functions.averageFunc] at hv
    rw [← hv]
    constructor <;> norm_num <;> linarith
  · simp [AMPE.Functions.averageFunc] at hv
    split_ifs at hv with hc
    · simp at hv; rw [← hv]; norm_num
    · simp at hv
      push Not at hc
      have t0 := AMPE.Functions.Props.threshold_pos
      have px : 0 < x := lt_of_lt_of_le t0 hc.1
      have py : 0 < y := lt_of_lt_of_le t0 hc.2
      rw [← hv]
      have e : 2 / (x⁻¹ + y⁻¹) = 2 * (x * y) / (x + y) := by field_simp; ring
      rw [e]
      constructor
      · positivity
      · rw [div_le_one (by positivity)]
        nlinarith

/-- **C77**: with phases in [0,1], a temperature, a misorientation parameter and a floor that are not negative, every face
coefficient the program computes is at most zero, so the energy above is not negative. -/
theorem c77_coef_sign {n : ℕ} (P : CoefParams) (hP : Accepted P) (hm : 0 ≤ P.misorientation) (hf : 0 < P.gradientFloor)
    (a b s t : ℝ) (ha : 0 ≤ a) (ha1 : a ≤ 1) (hb : 0 ≤ b) (hb1 : b ≤ 1) (hs : 0 ≤ s) (ht : 0 ≤ t) (gx gy : QVec n) (c : ℝ)
    (h : faceCoef P a b s t gx gy = some c) : c ≤ 0 := by
  obtain ⟨h1, h2, h3, h4⟩ := hP
  simp only [faceCoef, Option.bind_eq_bind, Option.bind_eq_some_iff] at h
  obtain ⟨x, hx, y, hy, z, hz, w, hw, e⟩ := h
  obtain ⟨x0, x1⟩ := average_range _ h1 _ _ _ ha ha1 hb hb1 hx
  have y0 := interp_nonneg _ h2 _ _ x0 x1 hy
  have z0 := interp_nonneg _ h3 _ _ x0 x1 hz
  have g0 : 0 ≤ acc (fun m => gx m ^ 2) + acc (fun m => gy m ^ 2) := by
    rw [acc_eq, acc_eq]
    exact add_nonneg (Finset.sum_nonneg fun m _ => sq_nonneg _) (Finset.sum_nonneg fun m _ => sq_nonneg _)
  have w0 : 0 ≤ w := by
    simp only [List.mem_cons, List.not_mem_nil, or_false] at h4
    rcases h4 with e | e | e <;> rw [e] at hw
    · obtain ⟨r, hr, p, -⟩ := c49_max (acc (fun m => gx m ^ 2) + acc (fun m => gy m ^ 2)) _ hf
      rw [hr] at hw; simp at hw; rw [← hw]; exact p.le
    · obtain ⟨r, hr, p, -⟩ := c49_tanh _ _ hf g0
      rw [hr] at hw; simp at hw; rw [← hw]; exact p.le
    · obtain ⟨r, hr, p, -⟩ := c49_sqrt _ _ hf g0
      rw [hr] at hw; simp at hw; rw [← hw]; exact p.le
  simp only [Option.some.injEq] at e
  rw [← e]
  have i1 : 0 ≤ w * (P.misorientation * (0.5 * (s + t)) * y) := by
    have : (0:ℝ) ≤ 0.5 * (s + t) := by norm_num; linarith
    positivity
  have i2 : 0 ≤ P.epsQ * P.epsQ * z := mul_nonneg (mul_self_nonneg _) z0
  linarith

/-- **C77**: the energy is not negative when no coefficient is positive. -/
theorem c77_energy_nonneg {n : ℕ} (N M : ℕ) (lo0 lo1 : ℤ) (hx hy : ℝ) (cX cY : ℤ → ℤ → ℝ) (hX : ∀ i j, cX i j ≤ 0)
    (hY : ∀ i j, cY i j ≤ 0) (Sx Sy : ℤ → ℤ → QVec n → QVec n) (q : QField n) :
    0 ≤ gradEnergy N M lo0 lo1 hx hy cX cY Sx Sy q := by
  unfold gradEnergy cellSum
  refine Finset.sum_nonneg fun b _ => Finset.sum_nonneg fun a _ => ?_
  have d : ∀ a b : QVec n, 0 ≤ dsq a b := fun a b => Finset.sum_nonneg fun m _ => sq_nonneg _
  have h1 := hX (lo0 + (a : ℤ)) (lo1 + (b : ℤ))
  have h2 := hY (lo0 + (a : ℤ)) (lo1 + (b : ℤ))
  have e1 : 0 ≤ -cX (lo0 + (a : ℤ)) (lo1 + (b : ℤ)) := by linarith
  have e2 : 0 ≤ -cY (lo0 + (a : ℤ)) (lo1 + (b : ℤ)) := by linarith
  have d1 := d (q (lo0 + (a : ℤ)) (lo1 + (b : ℤ))) (Sx (lo0 + (a : ℤ)) (lo1 + (b : ℤ)) (q (lo0 + (a : ℤ) - 1) (lo1 + (b : ℤ))))
  have d2 := d (q (lo0 + (a : ℤ)) (lo1 + (b : ℤ))) (Sy (lo0 + (a : ℤ)) (lo1 + (b : ℤ)) (q (lo0 + (a : ℤ)) (lo1 + (b : ℤ) - 1)))
  positivity

/-- **C77**: the speed `-Σ |rate|² / mobility` is not positive for positive mobilities, and zero only when every cell of
the period is at rest. -/
theorem c77_speed {n : ℕ} (N M : ℕ) (lo0 lo1 : ℤ) (mob : ℤ → ℤ → ℝ) (hm : ∀ i j, 0 < mob i j) (rate : QField n) :
    -cellSum N M lo0 lo1 (fun i j => dot (rate i j) (rate i j) / mob i j) ≤ 0 ∧
    (-cellSum N M lo0 lo1 (fun i j => dot (rate i j) (rate i j) / mob i j) = 0 →
      ∀ i j, lo0 ≤ i → i < lo0 + N → lo1 ≤ j → j < lo1 + M → rate i j = 0) := by
  have d : ∀ v : QVec n, 0 ≤ dot v v := fun v => Finset.sum_nonneg fun m _ => mul_self_nonneg _
  have nn : ∀ i j, 0 ≤ dot (rate i j) (rate i j) / mob i j := fun i j => div_nonneg (d _) (hm i j).le
  constructor
  · rw [neg_nonpos]
    exact Finset.sum_nonneg fun b _ => Finset.sum_nonneg fun a _ => nn _ _
  · intro h i j h1 h2 h3 h4
    rw [neg_eq_zero, cellSum] at h
    have h := (Finset.sum_eq_zero_iff_of_nonneg fun (b : ℕ) _ => Finset.sum_nonneg fun (a : ℕ) _ =>
      nn (lo0 + (a : ℤ)) (lo1 + (b : ℤ))).mp h
    have hb := h (j - lo1).toNat (Finset.mem_range.mpr (by omega))
    have hb := (Finset.sum_eq_zero_iff_of_nonneg fun (a : ℕ) _ =>
      nn (lo0 + (a : ℤ)) (lo1 + ((j - lo1).toNat : ℤ))).mp hb
    have ha := hb (i - lo0).toNat (Finset.mem_range.mpr (by omega))
    rw [show lo0 + ((i - lo0).toNat : ℤ) = i by omega, show lo1 + ((j - lo1).toNat : ℤ) = j by omega] at ha
    by_contra hne
    have := dot_self_pos _ hne
    have := div_pos this (hm i j)
    linarith

/-! ## The hypotheses are met -/

/-- A checkerboard of two orientations and rotation indices `1` and `2`. -/
example (G : Grid) (hG : G = ⟨0.5, 0.25, fun _ _ => 1, fun _ _ => 3, fun _ _ => 2⟩) :
    Dissipates 2 2 0 0 true true ⟨1, 2, 1, 'm', 'p', 'c', 'a'⟩ G (fun i j => if (i + j) % 2 = 0 then 1 else 2) (fun _ _ => 1)
      (fun i j => if (i + j) % 2 = 0 then ![1, 0, 0, 0] else ![0.6, 0.8, 0, 0])
      (RotOps.ofIndices 4 (fun i j => if (i + j) % 2 = 0 then 1 else 2) (fun _ _ => 1))
      (RotOps.ofIndices 4 (fun i j => if (i + j) % 2 = 0 then 1 else 2) (fun _ _ => 1)) := by
  subst hG
  have e : ∀ i j : ℤ, ((i + (2 : ℕ) + j) % 2 = 0 ↔ (i + j) % 2 = 0) ∧ ((i + (j + (2 : ℕ))) % 2 = 0 ↔ (i + j) % 2 = 0) := by
    intro i j; omega
  refine c77_dissipates4 2 2 0 0 _ (by simp [Accepted]) _ _ _ (fun i j => by split_ifs <;> omega) (fun _ _ => by omega) _ ?_
    (fun _ _ => by norm_num) ⟨fun i j => by simp only [(e i j).1], fun i j => by simp only [(e i j).2]⟩
    ⟨fun _ _ => rfl, fun _ _ => rfl⟩ ⟨fun _ _ => rfl, fun _ _ => rfl⟩ ⟨fun _ _ => rfl, fun _ _ => rfl⟩
    ⟨fun i j => by simp only [(e i j).1], fun i j => by simp only [(e i j).2]⟩ ⟨fun _ _ => rfl, fun _ _ => rfl⟩
  intro i j h
  have := congrFun h 0
  split_ifs at this <;> norm_num at this

end AMPE.QuatFlow.Props
