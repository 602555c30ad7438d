import Verif.Model.ConservedFlow3
import Verif.Props.ConservedFlow
import Verif.Props.AlloyFlow3

/-!
# C120: Cahn-Hilliard and sintering runs in three dimensions conserve composition and lower the free energy
-/

namespace AMPE.ConservedFlow3.Props

open AMPE.Functions AMPE.Functions.Props AMPE.Flux AMPE.PhaseRHS AMPE.PhaseRHS.Props AMPE.DiffCoeff AMPE.DiffCoeff.Props AMPE.Interface
  AMPE.AlloyFlow3 AMPE.ConservedFlow3
open AMPE.AlloyFlow3.Props (cellSum3_mul cellSum3_nonneg cellSum3_deriv cellSum3_zero parts soluteRate_eq uniform)
open AMPE.QuatFlow3 (Cell mv)
open AMPE.QuatFlow3.Props (Per3 Per3.mv cellSum3 cellSum3_shift cellSum3_add cellSum3_dir cellSum3_congr cellSum3_neg mv_comm mv_down_up mv_up_down
  mv_add mv_zero)

/-! ## Specification -/

/-- Slope on a side. -/
noncomputable def slope (h : Fin 3 → ℝ) (u : Cell → ℝ) (d : Fin 3) (p : Cell) : ℝ := (u p - u (mv d (-1) p)) / h d

/-- Squared gradient on the sides, with weights. -/
noncomputable def faceSq3 (h : Fin 3 → ℝ) (w : Fin 3 → Cell → ℝ) (u : Cell → ℝ) (p : Cell) : ℝ := ∑ d, w d p * slope h u d p ^ 2

/-- The free energy of the Cahn-Hilliard model, per cell volume. -/
noncomputable def chEnergy3 (N : Fin 3 → ℕ) (lo : Cell) (h : Fin 3 → ℝ) (ca cb w kappa : ℝ) (c : Cell → ℝ) : ℝ :=
  cellSum3 N lo (fun p => w * (c p - ca) ^ 2 * (cb - c p) ^ 2) + kappa / 2 * cellSum3 N lo (faceSq3 h (fun _ _ => 1) c)

/-- The free energy of the sintering model with gradient coefficients `beta` of the composition and `kappa` of the order
parameters, per cell volume. -/
noncomputable def sinterEnergy3 (N : Fin 3 → ℕ) (lo : Cell) (h : Fin 3 → ℝ) (A B beta kappa : ℝ) (n : ℕ) (c : Cell → ℝ)
    (phi : Fin n → Cell → ℝ) : ℝ :=
  cellSum3 N lo (fun p => wangEnergy n A B (c p) (fun k => phi k p)) + beta / 2 * cellSum3 N lo (faceSq3 h (fun _ _ => 1) c)
    + kappa / 2 * ∑ k : Fin n, cellSum3 N lo (faceSq3 h (fun _ _ => 1) (phi k))

/-- A cell of the patch `lo`..`hi`. -/
def Inside (lo hi p : Cell) : Prop := (lo.1 ≤ p.1 ∧ p.1 ≤ hi.1) ∧ (lo.2.1 ≤ p.2.1 ∧ p.2.1 ≤ hi.2.1) ∧ (lo.2.2 ≤ p.2.2 ∧ p.2.2 ≤ hi.2.2)

/-- `v` is what the patches of some decomposition compute: every cell lies in a patch whose rate there is `v`. -/
def OnPatches3 (rate : Cell → Cell → Cell → ℝ) (v : Cell → ℝ) : Prop := ∀ p, ∃ lo hi, Inside lo hi p ∧ v p = rate lo hi p

/-! ## Loops -/

theorem addAt3_apply (f : Cell → ℝ) (k : Cell) (v : ℝ) (x : Cell) : addAt3 f k v x = f x + if x = k then v else 0 := by
  unfold addAt3; split_ifs <;> simp

theorem foldl_addAt3 (L : List Cell) (k1 k2 : Cell → Cell) (v1 v2 : Cell → ℝ) (f : Cell → ℝ) (x : Cell) :
    L.foldl (fun f c => addAt3 (addAt3 f (k1 c) (v1 c)) (k2 c) (v2 c)) f x =
      f x + (L.map fun c => (if x = k1 c then v1 c else 0) + (if x = k2 c then v2 c else 0)).sum := by
  induction L generalizing f with
  | nil => simp
  | cons c L ih => simp only [List.foldl_cons, ih, List.map_cons, List.sum_cons, addAt3_apply]; ring

theorem mem_loop3 (a0 b0 a1 b1 a2 b2 : ℤ) (c : Cell) :
    c ∈ loop3 a0 b0 a1 b1 a2 b2 ↔ (a0 ≤ c.1 ∧ c.1 ≤ b0) ∧ (a1 ≤ c.2.1 ∧ c.2.1 ≤ b1) ∧ (a2 ≤ c.2.2 ∧ c.2.2 ≤ b2) := by
  unfold loop3
  simp only [List.mem_flatMap, List.mem_range, List.mem_map, Flux.Props.mem_loop2]
  constructor
  · rintro ⟨k, hk, p, ⟨h1, h2⟩, rfl⟩
    exact ⟨h1, h2, by simp only; omega⟩
  · rintro ⟨h1, h2, h3, h4⟩
    refine ⟨(c.2.2 - a2).toNat, by omega, (c.1, c.2.1), ⟨h1, h2⟩, ?_⟩
    ext <;> simp only <;> omega

theorem nodup_loop3 (a0 b0 a1 b1 a2 b2 : ℤ) : (loop3 a0 b0 a1 b1 a2 b2).Nodup := by
  unfold loop3
  rw [List.nodup_flatMap]
  refine ⟨fun b _ => ?_, ?_⟩
  · refine List.Nodup.map ?_ (Flux.Props.nodup_loop2 _ _ _ _)
    intro a a' h; simp only [Prod.mk.injEq] at h; ext <;> simp only [h.1, h.2.1]
  · refine List.Pairwise.imp ?_ List.nodup_range
    intro b b' hbb c hc hc'
    simp only [List.mem_map] at hc hc'
    obtain ⟨a, _, rfl⟩ := hc
    obtain ⟨a', _, h⟩ := hc'
    simp only [Prod.mk.injEq] at h
    exact hbb (by omega)

theorem sum_single3 (L : List Cell) (hL : L.Nodup) (c0 : Cell) (hc : c0 ∈ L) (P : Cell → Prop) [DecidablePred P]
    (hP : ∀ c, P c ↔ c = c0) (v : Cell → ℝ) : (L.map fun c => if P c then v c else 0).sum = v c0 := by
  induction L with
  | nil => simp at hc
  | cons a L ih =>
    simp only [List.map_cons, List.sum_cons]
    rw [List.nodup_cons] at hL
    rcases List.mem_cons.mp hc with rfl | h
    · rw [if_pos ((hP c0).mpr rfl)]
      have : (L.map fun c => if P c then v c else 0) = L.map fun _ => (0 : ℝ) := by
        refine List.map_congr_left fun c hc' => ?_
        rw [if_neg]
        intro h; rw [hP] at h; subst h; exact hL.1 hc'
      rw [this]; simp
    · rw [if_neg (by rw [hP]; rintro rfl; exact hL.1 h), ih hL.2 h, zero_add]

/-- The two cells next to a side of the patch are in the loop. -/
def Side (lo hi : Cell) (d : Fin 3) (p : Cell) : Prop := p ∈ grown lo hi ∧ mv d (-1) p ∈ grown lo hi

theorem inside_sides {lo hi p : Cell} (h : Inside lo hi p) (d : Fin 3) : Side lo hi d p ∧ Side lo hi d (mv d 1 p) := by
  obtain ⟨i, j, k⟩ := p
  obtain ⟨⟨a, b⟩, ⟨c, e⟩, f, g⟩ := h
  simp only at a b c e f g
  unfold Side grown
  simp only [mem_loop3]
  fin_cases d <;> simp only [mv] <;> omega

theorem mv_flip (d : Fin 3) (x c : Cell) : x = mv d 1 c ↔ c = mv d (-1) x :=
  ⟨fun e => by rw [e, mv_down_up], fun e => by rw [e, mv_up_down]⟩

theorem fold_side (lo hi : Cell) (d : Fin 3) (u v : Cell → ℝ) (f : Cell → ℝ) (p : Cell) (h : Side lo hi d p) :
    (grown lo hi).foldl (fun f c => addAt3 (addAt3 f c (u c)) (mv d 1 c) (v c)) f p = f p + (u p + v (mv d (-1) p)) := by
  have e := foldl_addAt3 (grown lo hi) (fun c => c) (mv d 1) u v f p
  rw [e, List.sum_map_add,
    sum_single3 (grown lo hi) (nodup_loop3 _ _ _ _ _ _) p h.1 (fun c => p = c) (fun c => ⟨fun e => e.symm, fun e => e.symm⟩) u,
    sum_single3 (grown lo hi) (nodup_loop3 _ _ _ _ _ _) (mv d (-1) p) h.2 (fun c => p = mv d 1 c) (fun c => mv_flip d p c) v]

theorem scatter_value (lo hi : Cell) (hd m : ℝ) (diff mu : Cell → ℝ) (d : Fin 3) (f : Cell → ℝ) (p : Cell) (h : Side lo hi d p) :
    scatter3 lo hi hd m diff mu d f p = f p + m * diff p * ((mu p - mu (mv d (-1) p)) / hd) := by
  unfold scatter3
  rw [fold_side lo hi d _ (fun c => -(m * diff (mv d 1 c) * (1 / hd) * mu c)) f p h, mv_up_down]
  ring

theorem spread_value (lo hi : Cell) (v : Cell → ℝ) (d : Fin 3) (f : Cell → ℝ) (p : Cell) (h : Side lo hi d p) :
    spread3 lo hi v d f p = f p + (v p + v (mv d (-1) p)) := fold_side lo hi d v v f p h

/-! ## Rates -/

/-- Divergence of `w` times the gradient. -/
noncomputable def div (h : Fin 3 → ℝ) (w : Fin 3 → Cell → ℝ) (mu : Cell → ℝ) (p : Cell) : ℝ :=
  ∑ d, (w d (mv d 1 p) * slope h mu d (mv d 1 p) - w d p * slope h mu d p) / h d

/-- The rate computed on a patch is the divergence of mobility times gradient of the potential. -/
theorem rate_eq (lo hi : Cell) (h : Fin 3 → ℝ) (m mob : ℝ) (w : Fin 3 → Cell → ℝ) (mu : Cell → ℝ) (p : Cell) (hp : Inside lo hi p) :
    soluteRate h m (fun d => scatter3 lo hi (h d) mob (w d) mu d (fun _ => 0)) p = m * mob * div h w mu p := by
  rw [soluteRate_eq, mul_assoc, div, Finset.mul_sum _ _ mob]
  refine congrArg (m * ·) ?_
  refine Finset.sum_congr rfl fun d _ => ?_
  rw [scatter_value _ _ _ _ _ _ _ _ _ (inside_sides hp d).1, scatter_value _ _ _ _ _ _ _ _ _ (inside_sides hp d).2]
  simp only [slope]
  ring

theorem slope_periodic {N : Fin 3 → ℕ} (h : Fin 3 → ℝ) {u : Cell → ℝ} (hu : Per3 N u) (d : Fin 3) : Per3 N (slope h u d) := fun e p => by
  have := hu.mv d (-1) e p
  beta_reduce at this
  simp only [slope, this, hu e p]

/-- Testing a divergence against a periodic field. -/
theorem div_test {N : Fin 3 → ℕ} (lo : Cell) (h : Fin 3 → ℝ) {w : Fin 3 → Cell → ℝ} {mu g : Cell → ℝ} (hw : ∀ d, Per3 N (w d)) (hmu : Per3 N mu)
    (hg : Per3 N g) :
    cellSum3 N lo (fun p => g p * div h w mu p) = -cellSum3 N lo (fun p => ∑ d, w d p * slope h g d p * slope h mu d p) := by
  have e : ∀ p, g p * div h w mu p = ∑ d, g p * (w d (mv d 1 p) * slope h mu d (mv d 1 p) / h d - w d p * slope h mu d p / h d) := fun p => by
    rw [div, Finset.mul_sum]; exact Finset.sum_congr rfl fun d _ => by ring
  rw [cellSum3_congr _ _ _ _ e, cellSum3_dir, cellSum3_dir, ← Finset.sum_neg_distrib]
  refine Finset.sum_congr rfl fun d _ => ?_
  have pF : Per3 N fun p => w d p * slope h mu d p / h d := fun e p => by beta_reduce; rw [hw d e p, slope_periodic h hmu d e p]
  have := parts (lo := lo) hg pF d
  beta_reduce at this
  rw [this]
  congr 1
  exact cellSum3_congr _ _ _ _ fun p => by simp only [slope]; ring

theorem lap_div (h : Fin 3 → ℝ) (u : Cell → ℝ) (p : Cell) : lap3 h u p = div h (fun _ _ => 1) u p := by
  refine Finset.sum_congr rfl fun d _ => ?_
  simp only [slope, mv_down_up]
  ring

theorem const_periodic (N : Fin 3 → ℕ) (k : ℝ) : Per3 N (fun _ => k) := fun _ _ => rfl

theorem Per3.deriv {N : Fin 3 → ℕ} {u : ℝ → Cell → ℝ} {v : Cell → ℝ} {t : ℝ} (hp : ∀ s, Per3 N (u s))
    (hu : ∀ p, HasDerivAt (fun s => u s p) (v p) t) : Per3 N v := fun d p =>
  (hu (mv d (N d) p)).unique ((hu p).congr_of_eventuallyEq (Filter.Eventually.of_forall fun s => hp s d p))

theorem faceSq_deriv {N : Fin 3 → ℕ} (lo : Cell) (h : Fin 3 → ℝ) {u : ℝ → Cell → ℝ} {v : Cell → ℝ} {t : ℝ} (hp : ∀ s, Per3 N (u s))
    (hu : ∀ p, HasDerivAt (fun s => u s p) (v p) t) :
    HasDerivAt (fun s => cellSum3 N lo (faceSq3 h (fun _ _ => 1) (u s))) (-2 * cellSum3 N lo (fun p => lap3 h (u t) p * v p)) t := by
  have cell : ∀ p, HasDerivAt (fun s => faceSq3 h (fun _ _ => 1) (u s) p) (2 * ∑ d, 1 * slope h v d p * slope h (u t) d p) t := fun p => by
    rw [Finset.mul_sum]
    refine HasDerivAt.fun_sum fun d _ => ?_
    have h1 := ((((hu p).sub (hu (mv d (-1) p))).div_const (h d)).pow 2).const_mul 1
    refine h1.congr_deriv ?_
    simp only [Pi.sub_apply, slope]
    push_cast
    ring
  refine (cellSum3_deriv cell).congr_deriv ?_
  have ht := div_test lo h (w := fun _ _ => 1) (fun _ => const_periodic N 1) (hp t) (Per3.deriv hp hu)
  rw [cellSum3_mul, cellSum3_congr N lo (fun p => lap3 h (u t) p * v p) (fun p => v p * div h (fun _ _ => 1) (u t) p) (fun p => by
    rw [lap_div]; ring), ht]
  ring

theorem lap_periodic {N : Fin 3 → ℕ} (h : Fin 3 → ℝ) {u : Cell → ℝ} (hp : Per3 N u) : Per3 N (lap3 h u) := fun e p => by
  refine Finset.sum_congr rfl fun d _ => ?_
  have a := hp.mv d (-1) e p
  have b := hp.mv d 1 e p
  beta_reduce at a b
  rw [a, b, hp e p]

theorem muCH_periodic {N : Fin 3 → ℕ} (ca cb w kappa : ℝ) (h : Fin 3 → ℝ) {c : Cell → ℝ} (hp : Per3 N c) : Per3 N (muCH3 ca cb w kappa h c) :=
  fun e p => by simp only [muCH3, hp e p, lap_periodic h hp e p]

theorem muWang_periodic {N : Fin 3 → ℕ} (a b beta : ℝ) (h : Fin 3 → ℝ) {n : ℕ} {c : Cell → ℝ} {phi : Fin n → Cell → ℝ} (hp : Per3 N c)
    (hq : ∀ k, Per3 N (phi k)) : Per3 N (muWang3 a b beta h n c phi) := fun e p => by
  simp only [muWang3, hp e p, lap_periodic h hp e p, hq _ e p]

theorem faceSq_nonneg (h : Fin 3 → ℝ) {w : Fin 3 → Cell → ℝ} (hw : ∀ d p, 0 ≤ w d p) (u : Cell → ℝ) (p : Cell) : 0 ≤ faceSq3 h w u p :=
  Finset.sum_nonneg fun d _ => mul_nonneg (hw d p) (sq_nonneg _)

/-! ## Cahn-Hilliard -/

theorem ch_rate {h : Fin 3 → ℝ} {m ca cb w kappa : ℝ} {c v : Cell → ℝ}
    (hv : OnPatches3 (fun lo hi => chRate3 lo hi h m ca cb w kappa c) v) (p : Cell) :
    v p = m * div h (fun _ _ => 1) (muCH3 ca cb w kappa h c) p := by
  obtain ⟨lo, hi, hp, e⟩ := hv p
  rw [e.trans (rate_eq lo hi h m 1 (fun _ _ => 1) _ p hp), mul_one]

/-- **C120**: a Cahn-Hilliard run conserves the total composition. -/
theorem c120_ch_conserves (N : Fin 3 → ℕ) (lo : Cell) (h : Fin 3 → ℝ) (m ca cb w kappa : ℝ) (c v : Cell → ℝ) (hp : Per3 N c)
    (hv : OnPatches3 (fun lo hi => chRate3 lo hi h m ca cb w kappa c) v) : cellSum3 N lo v = 0 := by
  have ht := div_test lo h (w := fun _ _ => 1) (fun _ => const_periodic N 1) (muCH_periodic ca cb w kappa h hp) (const_periodic N 1)
  rw [cellSum3_congr N lo v _ (ch_rate hv), cellSum3_mul]
  simp only [one_mul] at ht
  rw [ht]
  simp [slope, cellSum3]

/-- **C120**: along a Cahn-Hilliard run the free energy changes at minus the mobility times the squared gradient of the chemical
potential. -/
theorem c120_ch_dissipation (N : Fin 3 → ℕ) (lo : Cell) (h : Fin 3 → ℝ) (m ca cb w kappa : ℝ) (c : ℝ → Cell → ℝ) (v : Cell → ℝ) (t : ℝ)
    (hp : ∀ s, Per3 N (c s)) (hc : ∀ p, HasDerivAt (fun s => c s p) (v p) t)
    (hv : OnPatches3 (fun lo hi => chRate3 lo hi h m ca cb w kappa (c t)) v) :
    HasDerivAt (fun s => chEnergy3 N lo h ca cb w kappa (c s))
      (-m * cellSum3 N lo (faceSq3 h (fun _ _ => 1) (muCH3 ca cb w kappa h (c t)))) t := by
  have hb : ∀ p, HasDerivAt (fun s => w * (c s p - ca) ^ 2 * (cb - c s p) ^ 2)
      (2 * w * (c t p - ca) * (cb - c t p) * (cb + ca - 2 * c t p) * v p) t := fun p =>
    HasDerivAt.comp (h₂ := fun y : ℝ => w * (y - ca) ^ 2 * (cb - y) ^ 2) (h := fun s => c s p) t (Flux.Props.c51_mu_ch ca cb w (c t p)) (hc p)
  have hd := (cellSum3_deriv (N := N) (lo := lo) hb).add ((faceSq_deriv lo h hp hc).const_mul (kappa / 2))
  refine hd.congr_deriv ?_
  have hmu := muCH_periodic (N := N) ca cb w kappa h (hp t)
  have ht := div_test lo h (w := fun _ _ => 1) (fun _ => const_periodic N 1) hmu hmu
  have e1 : m * cellSum3 N lo (fun p => muCH3 ca cb w kappa h (c t) p * div h (fun _ _ => 1) (muCH3 ca cb w kappa h (c t)) p) =
      cellSum3 N lo (fun p => 2 * w * (c t p - ca) * (cb - c t p) * (cb + ca - 2 * c t p) * v p)
      + kappa / 2 * (-2 * cellSum3 N lo (fun p => lap3 h (c t) p * v p)) := by
    rw [← cellSum3_mul, ← cellSum3_mul, ← cellSum3_mul, ← cellSum3_add]
    refine cellSum3_congr _ _ _ _ fun p => ?_
    rw [ch_rate hv p]
    simp only [muCH3]
    ring
  rw [← e1, ht, mul_neg, neg_mul]
  congr 2
  exact cellSum3_congr _ _ _ _ fun p => Finset.sum_congr rfl fun d _ => by ring

/-- A run of the Cahn-Hilliard model. -/
structure ChRun (N : Fin 3 → ℕ) (h : Fin 3 → ℝ) (m ca cb w kappa : ℝ) (c : ℝ → Cell → ℝ) : Prop where
  per : ∀ t, Per3 N (c t)
  moves : ∀ t, ∃ v, (∀ p, HasDerivAt (fun s => c s p) (v p) t) ∧ OnPatches3 (fun lo hi => chRate3 lo hi h m ca cb w kappa (c t)) v

/-- **C120**: along a Cahn-Hilliard run, for a non-negative mobility, the free energy never increases and the total composition stays what
it was. -/
theorem c120_ch_run (N : Fin 3 → ℕ) (lo : Cell) (h : Fin 3 → ℝ) (m ca cb w kappa : ℝ) (hm : 0 ≤ m) (c : ℝ → Cell → ℝ)
    (hr : ChRun N h m ca cb w kappa c) :
    Antitone (fun t => chEnergy3 N lo h ca cb w kappa (c t)) ∧ ∀ s t, cellSum3 N lo (c s) = cellSum3 N lo (c t) := by
  choose v hv hon using hr.moves
  have hd := fun t => c120_ch_dissipation N lo h m ca cb w kappa c (v t) t hr.per (hv t) (hon t)
  have ht : ∀ t, HasDerivAt (fun s => cellSum3 N lo (c s)) 0 t := fun t =>
    (cellSum3_deriv (hv t)).congr_deriv (c120_ch_conserves N lo h m ca cb w kappa (c t) (v t) (hr.per t) (hon t))
  refine ⟨antitone_of_deriv_nonpos (fun t => (hd t).differentiableAt) fun t => ?_,
    is_const_of_deriv_eq_zero (fun t => (ht t).differentiableAt) fun t => (ht t).deriv⟩
  rw [(hd t).deriv, neg_mul]
  exact neg_nonpos.2 (mul_nonneg hm (cellSum3_nonneg fun p => faceSq_nonneg h (fun _ _ => zero_le_one) _ p))

/-- **C120**: with a positive mobility the energy stands still only at rest, the chemical potential being uniform. -/
theorem c120_ch_rest (N : Fin 3 → ℕ) (hN : ∀ d, 0 < N d) (lo : Cell) (h : Fin 3 → ℝ) (hh : ∀ d, h d ≠ 0) (m ca cb w kappa : ℝ) (hm : 0 < m) (c : ℝ → Cell → ℝ)
    (hr : ChRun N h m ca cb w kappa c) (t : ℝ) (h0 : HasDerivAt (fun s => chEnergy3 N lo h ca cb w kappa (c s)) 0 t) :
    (∀ p, HasDerivAt (fun s => c s p) 0 t) ∧ ∀ p, muCH3 ca cb w kappa h (c t) p = muCH3 ca cb w kappa h (c t) (0, 0, 0) := by
  obtain ⟨v, hv, hon⟩ := hr.moves t
  have e := (c120_ch_dissipation N lo h m ca cb w kappa c v t hr.per hv hon).unique h0
  have z := (mul_eq_zero.1 e).resolve_left (neg_ne_zero.2 hm.ne')
  have hmu := muCH_periodic (N := N) ca cb w kappa h (hr.per t)
  have pf : Per3 N (faceSq3 h (fun _ _ => 1) (muCH3 ca cb w kappa h (c t))) := fun e p =>
    Finset.sum_congr rfl fun d _ => by rw [slope_periodic h hmu d e p]
  have z' := cellSum3_zero hN pf (fun p => faceSq_nonneg h (fun _ _ => zero_le_one) _ p) z
  have s0 : ∀ d p, slope h (muCH3 ca cb w kappa h (c t)) d p = 0 := fun d p => by
    have := (Finset.sum_eq_zero_iff_of_nonneg fun d _ => mul_nonneg zero_le_one (sq_nonneg _)).1 (z' p) d (Finset.mem_univ d)
    simpa using this
  refine ⟨fun p => ?_, uniform fun d p => ?_⟩
  · refine (hv p).congr_deriv ?_
    rw [ch_rate hon p]
    simp [div, s0]
  · have := (div_eq_zero_iff.1 (s0 d p)).resolve_right (hh d)
    linarith

/-! ## Sintering -/

theorem sinter_rate {h : Fin 3 → ℝ} {m a b beta : ℝ} {w : Fin 3 → Cell → ℝ} {n : ℕ} {c v : Cell → ℝ} {phi : Fin n → Cell → ℝ}
    (hv : OnPatches3 (fun lo hi => sinterConcRate3 lo hi h m a b beta w n c phi) v) (p : Cell) :
    v p = m * m * div h w (muWang3 a b beta h n c phi) p := by
  obtain ⟨lo, hi, hp, e⟩ := hv p
  exact e.trans (rate_eq lo hi h m m w _ p hp)

/-- **C120**: a sintering run conserves the total composition. -/
theorem c120_sinter_conserves (N : Fin 3 → ℕ) (lo : Cell) (h : Fin 3 → ℝ) (m a b beta : ℝ) (w : Fin 3 → Cell → ℝ) (n : ℕ) (c v : Cell → ℝ)
    (phi : Fin n → Cell → ℝ) (hw : ∀ d, Per3 N (w d)) (hp : Per3 N c) (hq : ∀ k, Per3 N (phi k))
    (hv : OnPatches3 (fun lo hi => sinterConcRate3 lo hi h m a b beta w n c phi) v) : cellSum3 N lo v = 0 := by
  have ht := div_test lo h hw (muWang_periodic a b beta h hp hq) (const_periodic N 1)
  rw [cellSum3_congr N lo v _ (sinter_rate hv), cellSum3_mul]
  simp only [one_mul] at ht
  rw [ht]
  simp [slope, cellSum3]

/-- The force on an order parameter, the rate before the mobility. -/
noncomputable def sinterForce (n : ℕ) (eps b : ℝ) (h : Fin 3 → ℝ) (c : Cell → ℝ) (phi : Fin n → Cell → ℝ) (k : Fin n) (p : Cell) : ℝ :=
  sinterPhaseRate3 n eps b h (fun _ => 1) c phi k p

theorem phaseDiv_lap (e : ℝ) (h : Fin 3 → ℝ) (u : Cell → ℝ) (p : Cell) : phaseDiv e h u p = e ^ 2 * lap3 h u p := by
  obtain ⟨i, j, k⟩ := p
  simp only [phaseDiv, div3, gradFlux3X, gradFlux3Y, gradFlux3Z, lap3, f3, Fin.sum_univ_three, mv, add_sub_cancel_right, ← sub_eq_add_neg]
  ring

theorem force_eq (n : ℕ) (hn : 1 < n) (eps b : ℝ) (h : Fin 3 → ℝ) (c : Cell → ℝ) (phi : Fin n → Cell → ℝ) (k : Fin n) (p : Cell) :
    sinterForce n eps b h c phi k p = eps * (eps ^ 2 / 2) * lap3 h (phi k) p + wangRate n eps b (c p) (fun _ => 0) (fun k => phi k p) k := by
  simp only [sinterForce, sinterPhaseRate3, wangRate, phaseDiv_lap, Interface.Props.flux_eps_sq n hn]
  ring

/-- **C120**: along a sintering run (composition and order parameters moving together) the free energy, with the gradient coefficient
`epsilon · epsilon²/2` of the order parameters that the program effectively uses, changes at minus a sum of squares. -/
theorem c120_sinter_dissipation (N : Fin 3 → ℕ) (lo : Cell) (h : Fin 3 → ℝ) (m a b beta eps : ℝ) (w : Fin 3 → Cell → ℝ) (mob : Cell → ℝ) (n : ℕ)
    (hn : 1 < n) (c : ℝ → Cell → ℝ) (phi : ℝ → Fin n → Cell → ℝ) (v : Cell → ℝ) (r : Fin n → Cell → ℝ) (t : ℝ) (hw : ∀ d, Per3 N (w d))
    (hp : ∀ s, Per3 N (c s)) (hq : ∀ s k, Per3 N (phi s k)) (hc : ∀ p, HasDerivAt (fun s => c s p) (v p) t)
    (hphi : ∀ k p, HasDerivAt (fun s => phi s k p) (r k p) t)
    (hv : OnPatches3 (fun lo hi => sinterConcRate3 lo hi h m a b beta w n (c t) (phi t)) v)
    (hr : ∀ k p, r k p = sinterPhaseRate3 n eps b h mob (c t) (phi t) k p) :
    HasDerivAt (fun s => sinterEnergy3 N lo h a b beta (eps * (eps ^ 2 / 2)) n (c s) (phi s))
      (-(m * m) * cellSum3 N lo (faceSq3 h w (muWang3 a b beta h n (c t) (phi t)))
        - ∑ k, cellSum3 N lo (fun p => mob p * sinterForce n eps b h (c t) (phi t) k p ^ 2)) t := by
  let G : Cell → ℝ := fun p => 2 * a * c t p * (1 - c t p) * (1 - 2 * c t p)
    + 2 * b * (c t p - 3 * (∑ k, phi t k p * phi t k p) + 2 * (∑ k, phi t k p * phi t k p * phi t k p))
  have hb : ∀ p, HasDerivAt (fun s => wangEnergy n a b (c s p) (fun k => phi s k p))
      (G p * v p - ∑ k, wangRate n eps b (c t p) (fun _ => 0) (fun k => phi t k p) k * r k p) t := fun p => by
    have := c54_common_energy n a b eps (fun s => c s p) (fun s k => phi s k p) (v p) (fun k => r k p) t (hc p) (fun k => hphi k p)
      (fun i _ _ => if g : i - 1 < n then phi t ⟨i - 1, g⟩ p else 0) 0 0 1 1 (fun k => by simp)
    refine this.congr_deriv ?_
    congr 2
    simp only [muWang, G]
    rw [icc_sum n fun i => (if g : i - 1 < n then phi t ⟨i - 1, g⟩ p else 0) * (if g : i - 1 < n then phi t ⟨i - 1, g⟩ p else 0),
      icc_sum n fun i => (if g : i - 1 < n then phi t ⟨i - 1, g⟩ p else 0) * (if g : i - 1 < n then phi t ⟨i - 1, g⟩ p else 0)
        * (if g : i - 1 < n then phi t ⟨i - 1, g⟩ p else 0)]
    simp
  have hs := HasDerivAt.fun_sum (u := (Finset.univ : Finset (Fin n))) fun k _ =>
    faceSq_deriv (u := fun s => phi s k) lo h (fun s => hq s _) (hphi k)
  have hd := ((cellSum3_deriv (N := N) (lo := lo) hb).add ((faceSq_deriv lo h hp hc).const_mul (beta / 2))).add
    (hs.const_mul (eps * (eps ^ 2 / 2) / 2))
  refine hd.congr_deriv ?_
  have hmu := muWang_periodic (N := N) a b beta h (hp t) (hq t)
  have ht := div_test lo h hw hmu hmu
  have ef : cellSum3 N lo (faceSq3 h w (muWang3 a b beta h n (c t) (phi t))) =
      cellSum3 N lo (fun p => ∑ d, w d p * slope h (muWang3 a b beta h n (c t) (phi t)) d p * slope h (muWang3 a b beta h n (c t) (phi t)) d p) :=
    cellSum3_congr _ _ _ _ fun p => Finset.sum_congr rfl fun d _ => by ring
  have csum : ∀ F : Fin n → Cell → ℝ, ∑ k, cellSum3 N lo (F k) = cellSum3 N lo (fun p => ∑ k, F k p) := fun F => by
    simp only [cellSum3]
    rw [Finset.sum_comm]
    refine Finset.sum_congr rfl fun _ _ => ?_
    rw [Finset.sum_comm]
    refine Finset.sum_congr rfl fun _ _ => ?_
    rw [Finset.sum_comm]
  have et : -(m * m) * cellSum3 N lo (faceSq3 h w (muWang3 a b beta h n (c t) (phi t))) =
      cellSum3 N lo (fun p => muWang3 a b beta h n (c t) (phi t) p * v p) := by
    rw [ef, neg_mul, ← mul_neg, ← ht, ← cellSum3_mul]
    exact cellSum3_congr _ _ _ _ fun p => by rw [sinter_rate hv p]; ring
  rw [et, csum, ← Finset.mul_sum, csum, ← cellSum3_mul, ← cellSum3_mul, ← cellSum3_mul, ← cellSum3_mul, ← cellSum3_add, ← cellSum3_add,
    sub_eq_add_neg, ← cellSum3_neg, ← cellSum3_add]
  refine cellSum3_congr _ _ _ _ fun p => ?_
  have e1 : (∑ k, mob p * sinterForce n eps b h (c t) (phi t) k p ^ 2) = eps * (eps ^ 2 / 2) * (∑ k, lap3 h (phi t k) p * r k p)
      + ∑ k, wangRate n eps b (c t p) (fun _ => 0) (fun k => phi t k p) k * r k p := by
    rw [Finset.mul_sum, ← Finset.sum_add_distrib]
    refine Finset.sum_congr rfl fun k _ => ?_
    have er : r k p = sinterForce n eps b h (c t) (phi t) k p * mob p := by rw [hr]; simp [sinterForce, sinterPhaseRate3]
    rw [er, force_eq n hn]
    ring
  rw [e1]
  have em : muWang3 a b beta h n (c t) (phi t) p = G p - beta * lap3 h (c t) p := rfl
  rw [em]
  ring

/-! ### Coefficients -/

/-- What the coefficient on a side should be: the mixture of the two bulk values at the composition there, plus for either cell half the
grain boundary and half the surface contribution. -/
noncomputable def sideCoef (d0LA d0AA : ℝ) (n : ℕ) (c : Cell → ℝ) (phi : Fin n → Cell → ℝ) (base : Fin 3 → Cell → ℝ) (d : Fin 3) (p : Cell) : ℝ :=
  base d p + ((cellD3 n d0AA phi p + dSingle d0LA (c p)) + (cellD3 n d0AA phi (mv d (-1) p) + dSingle d0LA (c (mv d (-1) p))))

/-- **C120**: on the sides of a patch the coefficient does not depend on the patch; both neighbours of a shared side agree. -/
theorem c120_coefficient (lo hi : Cell) (d0LA d0AA : ℝ) (n : ℕ) (c : Cell → ℝ) (phi : Fin n → Cell → ℝ) (base : Fin 3 → Cell → ℝ) (d : Fin 3)
    (p : Cell) (hp : Inside lo hi p) : sinterCoef3 lo hi d0LA d0AA n c phi base d p = sideCoef d0LA d0AA n c phi base d p ∧
      sinterCoef3 lo hi d0LA d0AA n c phi base d (mv d 1 p) = sideCoef d0LA d0AA n c phi base d (mv d 1 p) := by
  obtain ⟨h1, h2⟩ := inside_sides hp d
  simp only [sinterCoef3, spread_value _ _ _ _ _ _ h1, spread_value _ _ _ _ _ _ h2, sideCoef]
  constructor <;> ring

theorem cellD3_nonneg (n : ℕ) {d0 : ℝ} (h : 0 ≤ d0) (phi : Fin n → Cell → ℝ) (p : Cell) : 0 ≤ cellD3 n d0 phi p := by
  refine List.sum_nonneg fun x hx => ?_
  obtain ⟨ab, -, rfl⟩ := List.mem_map.1 hx
  unfold dAB
  split_ifs <;> first | exact le_refl 0 | skip
  all_goals
    refine mul_nonneg (mul_nonneg (by positivity) (by positivity)) ?_
    rw [show ∀ x y : ℝ, x * x * y * y = (x * y) ^ 2 by intros; ring]
    positivity

theorem dSingle_nonneg {d0 : ℝ} (h : 0 ≤ d0) (x : ℝ) : 0 ≤ dSingle d0 x := by
  unfold dSingle
  rw [show 0.5 * d0 * 2 ^ 4 * x * x * (1 - x) * (1 - x) = 8 * d0 * (x * (1 - x)) ^ 2 by ring]
  positivity

/-- The coefficients as the code computes them for the state: `base` is what `concentration_pfmdiffusion_scalar` leaves on the sides. -/
def Base (it at_ : Char) (d0L d0A : ℝ) (c : Cell → ℝ) (base : Fin 3 → Cell → ℝ) : Prop :=
  ∀ d p, scalar it at_ d0L d0A (sides c d p) = some (base d p)

theorem base_nonneg {it at_ : Char} (hit : it ∈ clamped) {d0L d0A : ℝ} (hL : 0 ≤ d0L) (hA : 0 ≤ d0A) {c : Cell → ℝ} {base : Fin 3 → Cell → ℝ}
    (hb : Base it at_ d0L d0A c base) (d : Fin 3) (p : Cell) : 0 ≤ base d p ∧ (0 < d0L → 0 < d0A → 0 < base d p) := by
  have e := hb d p
  obtain ⟨H, hH, hr⟩ := AlloyFlow.Props.fraction it hit
  simp only [scalar, Option.bind_eq_bind, Option.bind_eq_some_iff, Option.some.injEq] at e
  obtain ⟨v, -, x, hx, e⟩ := e
  have ex : H v = x := Option.some.inj ((hH v).symm.trans hx)
  obtain ⟨r0, r1⟩ := hr v
  rw [ex] at r0 r1
  rw [← e]
  refine ⟨add_nonneg (mul_nonneg (by linarith) hL) (mul_nonneg r0 hA), fun l a => ?_⟩
  rcases eq_or_lt_of_le r0 with g | g
  · rw [← g]; linarith
  · exact add_pos_of_nonneg_of_pos (mul_nonneg (by linarith) hL) (mul_pos g a)

/-- **C120**: whatever the state, the coefficient is not below the bulk mixture, so it is non-negative. -/
theorem c120_coefficient_nonneg (it at_ : Char) (hit : it ∈ clamped) (d0L d0A d0LA d0AA : ℝ) (hL : 0 ≤ d0L) (hA : 0 ≤ d0A) (hLA : 0 ≤ d0LA)
    (hAA : 0 ≤ d0AA) (n : ℕ) (c : Cell → ℝ) (phi : Fin n → Cell → ℝ) (base : Fin 3 → Cell → ℝ) (hb : Base it at_ d0L d0A c base) (d : Fin 3)
    (p : Cell) : base d p ≤ sideCoef d0LA d0AA n c phi base d p ∧ 0 ≤ sideCoef d0LA d0AA n c phi base d p := by
  have := (base_nonneg hit hL hA hb d p).1
  have a := cellD3_nonneg n hAA phi p
  have a' := cellD3_nonneg n hAA phi (mv d (-1) p)
  have b := dSingle_nonneg hLA (c p)
  have b' := dSingle_nonneg hLA (c (mv d (-1) p))
  unfold sideCoef
  constructor <;> linarith

theorem coef_periodic {N : Fin 3 → ℕ} {it at_ : Char} {d0L d0A : ℝ} (d0LA d0AA : ℝ) {n : ℕ} {c : Cell → ℝ} {phi : Fin n → Cell → ℝ}
    {base : Fin 3 → Cell → ℝ} (hp : Per3 N c) (hq : ∀ k, Per3 N (phi k)) (hb : Base it at_ d0L d0A c base) (d : Fin 3) :
    Per3 N (sideCoef d0LA d0AA n c phi base d) := fun e p => by
  have a := hp.mv d (-1) e p
  have a' := fun k => (hq k).mv d (-1) e p
  beta_reduce at a a'
  have eb : base d (mv e (N e) p) = base d p := by
    have e1 := hb d (mv e (N e) p)
    have e2 := hb d p
    rw [show sides c d (mv e (N e) p) = sides c d p by simp only [sides, a, hp e p]] at e1
    exact Option.some.inj (e1.symm.trans e2)
  simp only [sideCoef, cellD3, eb, a, hp e p]
  congr 2 <;> congr 1 <;> congr 1 <;> refine List.map_congr_left fun ab _ => ?_
  · congr 1 <;> split_ifs <;> first | rfl | exact hq _ e p
  · congr 1 <;> split_ifs <;> first | rfl | exact a' _

/-! ### Runs -/

/-- A run of the sintering model: composition and order parameters move at the rates computed on the patches, with the coefficients
the patches compute. -/
structure SinterRun (N : Fin 3 → ℕ) (h : Fin 3 → ℝ) (it at_ : Char) (m a b beta eps d0L d0A d0LA d0AA : ℝ) (n : ℕ) (mob c : ℝ → Cell → ℝ)
    (phi : ℝ → Fin n → Cell → ℝ) : Prop where
  perC : ∀ t, Per3 N (c t)
  perPhi : ∀ t k, Per3 N (phi t k)
  moves : ∀ t, ∃ (base : Fin 3 → Cell → ℝ) (v : Cell → ℝ), Base it at_ d0L d0A (c t) base ∧ (∀ p, HasDerivAt (fun s => c s p) (v p) t) ∧
    OnPatches3 (fun lo hi => sinterConcRate3 lo hi h m a b beta (sinterCoef3 lo hi d0LA d0AA n (c t) (phi t) base) n (c t) (phi t)) v ∧
    ∀ k p, HasDerivAt (fun s => phi s k p) (sinterPhaseRate3 n eps b h (mob t) (c t) (phi t) k p) t

theorem run_coef {h : Fin 3 → ℝ} {m a b beta d0LA d0AA : ℝ} {n : ℕ} {c : Cell → ℝ} {phi : Fin n → Cell → ℝ} {base : Fin 3 → Cell → ℝ} {v : Cell → ℝ}
    (hv : OnPatches3 (fun lo hi => sinterConcRate3 lo hi h m a b beta (sinterCoef3 lo hi d0LA d0AA n c phi base) n c phi) v) :
    OnPatches3 (fun lo hi => sinterConcRate3 lo hi h m a b beta (sideCoef d0LA d0AA n c phi base) n c phi) v := by
  intro p
  obtain ⟨lo, hi, hp, e⟩ := hv p
  refine ⟨lo, hi, hp, ?_⟩
  refine (e.trans (rate_eq _ _ _ _ _ _ _ _ hp)).trans (Eq.trans ?_ (rate_eq _ _ _ _ _ _ _ _ hp).symm)
  congr 1
  refine Finset.sum_congr rfl fun d _ => ?_
  obtain ⟨e1, e2⟩ := c120_coefficient lo hi d0LA d0AA n c phi base d p hp
  rw [e1, e2]

/-- **C120** (second law of sintering): along a run the free energy never increases and the total composition stays what it was. -/
theorem c120_sinter_run (N : Fin 3 → ℕ) (lo : Cell) (h : Fin 3 → ℝ) (it at_ : Char) (hit : it ∈ clamped) (m a b beta eps d0L d0A d0LA d0AA : ℝ)
    (hL : 0 ≤ d0L) (hA : 0 ≤ d0A) (hLA : 0 ≤ d0LA) (hAA : 0 ≤ d0AA) (n : ℕ) (hn : 1 < n) (mob c : ℝ → Cell → ℝ) (phi : ℝ → Fin n → Cell → ℝ)
    (hm : ∀ t p, 0 ≤ mob t p) (hr : SinterRun N h it at_ m a b beta eps d0L d0A d0LA d0AA n mob c phi) :
    Antitone (fun t => sinterEnergy3 N lo h a b beta (eps * (eps ^ 2 / 2)) n (c t) (phi t)) ∧
      ∀ s t, cellSum3 N lo (c s) = cellSum3 N lo (c t) := by
  choose base v hb hv hon hphi using hr.moves
  have per := fun t d => coef_periodic d0LA d0AA (hr.perC t) (hr.perPhi t) (hb t) d
  have hd := fun t => c120_sinter_dissipation N lo h m a b beta eps (sideCoef d0LA d0AA n (c t) (phi t) (base t)) (mob t) n hn c phi (v t) _ t
    (per t) hr.perC hr.perPhi (hv t) (hphi t) (run_coef (hon t)) (fun _ _ => rfl)
  have ht : ∀ t, HasDerivAt (fun s => cellSum3 N lo (c s)) 0 t := fun t =>
    (cellSum3_deriv (hv t)).congr_deriv (c120_sinter_conserves N lo h m a b beta _ n (c t) (v t) (phi t) (per t) (hr.perC t) (hr.perPhi t)
      (run_coef (hon t)))
  refine ⟨antitone_of_deriv_nonpos (fun t => (hd t).differentiableAt) fun t => ?_,
    is_const_of_deriv_eq_zero (fun t => (ht t).differentiableAt) fun t => (ht t).deriv⟩
  rw [(hd t).deriv]
  have e1 := mul_nonneg (mul_self_nonneg m) (cellSum3_nonneg (N := N) (lo := lo) fun p =>
    faceSq_nonneg h (fun d p => (c120_coefficient_nonneg it at_ hit d0L d0A d0LA d0AA hL hA hLA hAA n (c t) (phi t) (base t) (hb t) d p).2)
      (muWang3 a b beta h n (c t) (phi t)) p)
  have e2 : 0 ≤ ∑ k, cellSum3 N lo (fun p => mob t p * sinterForce n eps b h (c t) (phi t) k p ^ 2) :=
    Finset.sum_nonneg fun k _ => cellSum3_nonneg fun p => mul_nonneg (hm t p) (sq_nonneg _)
  linarith

/-- **C120**: with positive mobilities and bulk diffusivities the energy stands still only at rest: nothing moves, no force acts on the order
parameters and the chemical potential is uniform. -/
theorem c120_sinter_rest (N : Fin 3 → ℕ) (hN : ∀ d, 0 < N d) (lo : Cell) (h : Fin 3 → ℝ) (hh : ∀ d, h d ≠ 0) (it at_ : Char) (hit : it ∈ clamped)
    (m a b beta eps d0L d0A d0LA d0AA : ℝ) (hm0 : m ≠ 0) (hL : 0 < d0L) (hA : 0 < d0A) (hLA : 0 ≤ d0LA) (hAA : 0 ≤ d0AA) (n : ℕ) (hn : 1 < n)
    (mob c : ℝ → Cell → ℝ) (phi : ℝ → Fin n → Cell → ℝ) (hm : ∀ t p, 0 < mob t p) (pm : ∀ t, Per3 N (mob t))
    (hr : SinterRun N h it at_ m a b beta eps d0L d0A d0LA d0AA n mob c phi) (t : ℝ)
    (h0 : HasDerivAt (fun s => sinterEnergy3 N lo h a b beta (eps * (eps ^ 2 / 2)) n (c s) (phi s)) 0 t) :
    (∀ p, HasDerivAt (fun s => c s p) 0 t) ∧ (∀ k p, HasDerivAt (fun s => phi s k p) 0 t) ∧
      (∀ k p, sinterForce n eps b h (c t) (phi t) k p = 0) ∧
      ∀ p, muWang3 a b beta h n (c t) (phi t) p = muWang3 a b beta h n (c t) (phi t) (0, 0, 0) := by
  obtain ⟨base, v, hb, hv, hon, hphi⟩ := hr.moves t
  have per := fun d => coef_periodic d0LA d0AA (hr.perC t) (hr.perPhi t) hb d
  have e := (c120_sinter_dissipation N lo h m a b beta eps (sideCoef d0LA d0AA n (c t) (phi t) base) (mob t) n hn c phi v _ t
    per hr.perC hr.perPhi hv hphi (run_coef hon) (fun _ _ => rfl)).unique h0
  have hmu := muWang_periodic (N := N) a b beta h (hr.perC t) (hr.perPhi t)
  have wpos : ∀ d p, 0 < sideCoef d0LA d0AA n (c t) (phi t) base d p := fun d p =>
    ((base_nonneg hit hL.le hA.le hb d p).2 hL hA).trans_le
      (c120_coefficient_nonneg it at_ hit d0L d0A d0LA d0AA hL.le hA.le hLA hAA n (c t) (phi t) base hb d p).1
  have n1 : 0 ≤ cellSum3 N lo (faceSq3 h (sideCoef d0LA d0AA n (c t) (phi t) base) (muWang3 a b beta h n (c t) (phi t))) :=
    cellSum3_nonneg fun p => faceSq_nonneg h (fun d p => (wpos d p).le) _ p
  have n2 : ∀ k, 0 ≤ cellSum3 N lo (fun p => mob t p * sinterForce n eps b h (c t) (phi t) k p ^ 2) := fun k =>
    cellSum3_nonneg fun p => mul_nonneg (hm t p).le (sq_nonneg _)
  have n3 := Finset.sum_nonneg fun k (_ : k ∈ Finset.univ) => n2 k
  have mm : 0 < m * m := mul_self_pos.2 hm0
  have z1 : cellSum3 N lo (faceSq3 h (sideCoef d0LA d0AA n (c t) (phi t) base) (muWang3 a b beta h n (c t) (phi t))) = 0 := by
    nlinarith [mul_nonneg mm.le n1]
  have z2 := (Finset.sum_eq_zero_iff_of_nonneg fun k _ => n2 k).1 (show _ = (0 : ℝ) by nlinarith [mul_nonneg mm.le n1])
  have pf : Per3 N (faceSq3 h (sideCoef d0LA d0AA n (c t) (phi t) base) (muWang3 a b beta h n (c t) (phi t))) := fun e p =>
    Finset.sum_congr rfl fun d _ => by rw [slope_periodic h hmu d e p, per d e p]
  have z1' := cellSum3_zero hN pf (fun p => faceSq_nonneg h (fun d p => (wpos d p).le) _ p) z1
  have s0 : ∀ d p, slope h (muWang3 a b beta h n (c t) (phi t)) d p = 0 := fun d p => by
    have := (Finset.sum_eq_zero_iff_of_nonneg fun d _ => mul_nonneg (wpos d p).le (sq_nonneg _)).1 (z1' p) d (Finset.mem_univ d)
    exact pow_eq_zero_iff (two_ne_zero) |>.1 ((mul_eq_zero.1 this).resolve_left (wpos d p).ne')
  have F0 : ∀ k p, sinterForce n eps b h (c t) (phi t) k p = 0 := fun k p => by
    have pk : Per3 N (fun p => mob t p * sinterForce n eps b h (c t) (phi t) k p ^ 2) := fun e p => by
      beta_reduce
      rw [pm t e p, force_eq n hn, force_eq n hn, lap_periodic h (hr.perPhi t k) e p, hr.perC t e p]
      simp only [hr.perPhi t _ e p]
    have := cellSum3_zero hN pk (fun p => mul_nonneg (hm t p).le (sq_nonneg _)) (z2 k (Finset.mem_univ k)) p
    exact pow_eq_zero_iff (two_ne_zero) |>.1 ((mul_eq_zero.1 this).resolve_left (hm t p).ne')
  refine ⟨fun p => ?_, fun k p => ?_, F0, uniform fun d p => ?_⟩
  · refine (hv p).congr_deriv ?_
    rw [sinter_rate (run_coef hon) p]
    simp [div, s0]
  · refine (hphi k p).congr_deriv ?_
    rw [show sinterPhaseRate3 n eps b h (mob t) (c t) (phi t) k p = sinterForce n eps b h (c t) (phi t) k p * mob t p by
      simp [sinterForce, sinterPhaseRate3], F0, zero_mul]
  · have := (div_eq_zero_iff.1 (s0 d p)).resolve_right (hh d)
    linarith

/-- **C120** (violation): the mobility of the input enters the composition rate of the sintering model twice. -/
theorem c120_violation_mobility (lo hi : Cell) (h : Fin 3 → ℝ) (m a b beta : ℝ) (w : Fin 3 → Cell → ℝ) (n : ℕ) (c : Cell → ℝ)
    (phi : Fin n → Cell → ℝ) (p : Cell) (hp : Inside lo hi p) :
    sinterConcRate3 lo hi h m a b beta w n c phi p = m ^ 2 * sinterConcRate3 lo hi h 1 a b beta w n c phi p ∧
    (sinterConcRate3 lo hi h m a b beta w n c phi p = m * sinterConcRate3 lo hi h 1 a b beta w n c phi p ↔
      m = 0 ∨ m = 1 ∨ sinterConcRate3 lo hi h 1 a b beta w n c phi p = 0) := by
  have e : sinterConcRate3 lo hi h m a b beta w n c phi p = m ^ 2 * sinterConcRate3 lo hi h 1 a b beta w n c phi p := by
    simp only [sinterConcRate3]
    rw [rate_eq _ _ _ _ _ _ _ _ hp, rate_eq _ _ _ _ _ _ _ _ hp]
    ring
  refine ⟨e, ?_⟩
  rw [e]
  generalize sinterConcRate3 lo hi h 1 a b beta w n c phi p = R
  constructor
  · intro h
    have h2 : m * ((m - 1) * R) = 0 := by linear_combination h
    rcases mul_eq_zero.mp h2 with h3 | h3
    · exact Or.inl h3
    · rcases mul_eq_zero.mp h3 with h4 | h4
      · exact Or.inr (Or.inl (by linarith))
      · exact Or.inr (Or.inr h4)
  · rintro (rfl | rfl | h)
    · ring
    · ring
    · rw [h]; ring

end AMPE.ConservedFlow3.Props
