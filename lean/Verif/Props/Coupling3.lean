import Verif.Model.Coupling3
import Verif.Props.Coupling

/-!
# C125: solute flux in phase-gradient form, three dimensions

A 3D sample may be laid along any axis, and a stack of equal layers is the 2D sample: the flux through a side is a function
of the two cells that share it, the same function for all three axes.
-/

namespace AMPE.Coupling3.Props

open AMPE.Functions AMPE.Functions.Props AMPE.Flux AMPE.DiffCoeff AMPE.DiffCoeff.Props AMPE.Coupling
  AMPE.Coupling.Props AMPE.Coupling3

theorem addr_x (b : Box3) (g i j l : ℤ) : addr b g i j l - 1 = addr b g (i - 1) j l := by unfold addr; ring
theorem addr_y (b : Box3) (g i j l : ℤ) : addr b g i j l - row b g = addr b g i (j - 1) l := by unfold addr; ring
theorem addr_z (b : Box3) (g i j l : ℤ) : addr b g i j l - plane b g = addr b g i j (l - 1) := by unfold addr; ring

/-- **C125**: the address that the C++ loops compute for a face is the one the Fortran routines use for the same face, for
all three directions and every ghost width. -/
theorem c125_addresses (b : Box3) (g i j l : ℤ) :
    sideX b g i j l = fortSideX b g i j l ∧ sideY b g i j l = fortSideY b g i j l ∧
      sideZ b g i j l = fortSideZ b g i j l := by
  refine ⟨?_, ?_, ?_⟩ <;>
    simp only [sideX, sideY, sideZ, fortSideX, fortSideY, fortSideZ, fort, plane, row] <;> ring

/-- Two faces of the patch with the same address are the same face (x faces; `n0 + 1` of them in a row). -/
theorem c125_addresses_distinct (b : Box3) (g i j l i' j' l' : ℤ)
    (hi : b.lo0 - g ≤ i ∧ i ≤ b.lo0 + b.n0 + g) (hi' : b.lo0 - g ≤ i' ∧ i' ≤ b.lo0 + b.n0 + g)
    (hj : b.lo1 - g ≤ j ∧ j < b.lo1 + b.n1 + g) (hj' : b.lo1 - g ≤ j' ∧ j' < b.lo1 + b.n1 + g)
    (h : sideX b g i j l = sideX b g i' j' l') : i = i' ∧ j = j' ∧ l = l' := by
  rw [(c125_addresses b g i j l).1, (c125_addresses b g i' j' l').1] at h
  have unique : ∀ e x x' y y' : ℤ, 0 ≤ x → x < e → 0 ≤ x' → x' < e → x + e * y = x' + e * y' → x = x' ∧ y = y' := by
    intro e x x' y y' h0 h1 h0' h1' hh
    have hx : (x + e * y) % e = x := by rw [Int.add_mul_emod_self_left, Int.emod_eq_of_lt h0 h1]
    have hx' : (x' + e * y') % e = x' := by rw [Int.add_mul_emod_self_left, Int.emod_eq_of_lt h0' h1']
    have e1 : x = x' := by rw [← hx, ← hx', hh]
    refine ⟨e1, ?_⟩
    have : e * y = e * y' := by linarith
    exact mul_left_cancel₀ (by omega) this
  unfold fortSideX fort at h
  obtain ⟨h1, h2⟩ := unique _ _ _ _ _ (by omega) (by omega) (by omega) (by omega) h
  obtain ⟨h3, h4⟩ := unique _ _ _ _ _ (by omega) (by omega) (by omega) (by omega) h2
  omega

/-! ## Beckermann form -/

/-- Flux of a face from the cells it shares: `kd` is the partition coefficient used for the diffusion coefficient, `k` the
pair used for the coupling. -/
noncomputable def faceFlux (it at_ : Char) (dl ds h kd : ℝ) (phi c k : Pair) : Option ℝ := do
  let d0 ← beckermann it at_ dl ds kd phi
  let v ← avgP at_ phi
  let hv ← interpFunc it v
  let u ← avgP at_ c
  let q ← avgP at_ k
  some (1 / h * (d0 * (c.2 - c.1) + d0 * (1 - q) * u / (1 - hv + q * hv) * (phi.2 - phi.1)))

theorem beckFluxX_eq (it at_ : Char) (b : Box3) (dl ds h : ℝ) (phi c k : CellArr) (hg : c.g = k.g) (i j l : ℤ) :
    beckFluxX it at_ b dl ds h phi c k i j l =
      faceFlux it at_ dl ds h (cell b k i j l) (X3 (cell b phi) i j l) (X3 (cell b c) i j l) (X3 (cell b k) i j l) := by
  have e : ∀ d0, beckCouplX it at_ b d0 phi c k i j l = beckCoef it at_ d0 (X3 (cell b phi) i j l).swap
      (X3 (cell b c) i j l).swap (X3 (cell b k) i j l).swap := by
    intro d0
    simp only [beckCouplX, X3, cell, Prod.swap, addr_x, hg]
  simp only [beckFluxX, e, faceFlux, beckCoef, avgP_swap, concFlux, Option.bind_eq_bind, Option.bind_assoc,
    Option.bind_some]

theorem beckFluxY_eq (it at_ : Char) (b : Box3) (dl ds h : ℝ) (phi c k : CellArr) (hg : c.g = k.g) (i j l : ℤ) :
    beckFluxY it at_ b dl ds h phi c k i j l =
      faceFlux it at_ dl ds h (cell b k i j l) (Y3 (cell b phi) i j l) (Y3 (cell b c) i j l) (X3 (cell b k) i j l) := by
  have e : ∀ d0, beckCouplY it at_ b d0 phi c k i j l = beckCoef it at_ d0 (Y3 (cell b phi) i j l).swap
      (Y3 (cell b c) i j l).swap (X3 (cell b k) i j l).swap := by
    intro d0
    simp only [beckCouplY, X3, Y3, cell, Prod.swap, addr_x, addr_y, hg]
  simp only [beckFluxY, e, faceFlux, beckCoef, avgP_swap, concFlux, Option.bind_eq_bind, Option.bind_assoc,
    Option.bind_some]

theorem beckFluxZ_eq (it at_ : Char) (b : Box3) (dl ds h : ℝ) (phi c k : CellArr) (hg : c.g = k.g) (i j l : ℤ) :
    beckFluxZ it at_ b dl ds h phi c k i j l =
      faceFlux it at_ dl ds h (cell b k i j l) (Z3 (cell b phi) i j l) (Z3 (cell b c) i j l) (X3 (cell b k) i j l) := by
  have e : ∀ d0, beckCouplZ it at_ b d0 phi c k i j l = beckCoef it at_ d0 (Z3 (cell b phi) i j l).swap
      (Z3 (cell b c) i j l).swap (X3 (cell b k) i j l).swap := by
    intro d0
    simp only [beckCouplZ, X3, Z3, cell, Prod.swap, addr_x, addr_z, hg]
  simp only [beckFluxZ, e, faceFlux, beckCoef, avgP_swap, concFlux, Option.bind_eq_bind, Option.bind_assoc,
    Option.bind_some]

/-- The phase is between 0 (liquid) and 1 (solid). -/
def Unit3 (phi : Field3) : Prop := ∀ i j l, 0 ≤ phi i j l ∧ phi i j l ≤ 1

/-- Coefficient of the difference of liquid compositions across a face with phases `p`, `q`: the mixture of the liquid's
and of `κ` times the solid's. -/
noncomputable def drive (dl ds h κ p q : ℝ) : ℝ :=
  1 / h * (((1 - (p + q) / 2) * dl + κ * ((p + q) / 2) * ds) * ((1 - p + κ * p) * (1 - q + κ * q)) /
    (1 - (p + q) / 2 + κ * ((p + q) / 2)) ^ 2)

theorem faceFlux_linear (dl ds h κ : ℝ) (hκ : 0 < κ) (p q l1 l2 : ℝ) (p0 : 0 ≤ p) (p1 : p ≤ 1) (q0 : 0 ≤ q)
    (q1 : q ≤ 1) :
    faceFlux 'l' 'a' dl ds h κ (p, q) (l1 * (1 - p + κ * p), l2 * (1 - q + κ * q)) (κ, κ) =
      some (drive dl ds h κ p q * (l2 - l1)) := by
  have hw : 1 - (p + q) / 2 + κ * ((p + q) / 2) ≠ 0 := by
    have : 0 < 1 - (p + q) / 2 + κ * ((p + q) / 2) := by
      rcases (show (p + q) / 2 ≤ 1 by linarith).lt_or_eq with g | g
      · have := mul_nonneg hκ.le (show 0 ≤ (p + q) / 2 by linarith)
        linarith
      · rw [g]; linarith
    exact this.ne'
  have hh := interp_l (x := (p + q) / 2) (by linarith) (by linarith)
  have hk : (κ + κ) / 2 = κ := by ring
  simp only [faceFlux, beckermann, avgP, avg_a, hh, hk, Option.bind_eq_bind, Option.bind_some, Option.some.injEq, drive]
  have hD : ds + (dl - ds) * (1 - (p + q) / 2) / (1 - (p + q) / 2 + κ * ((p + q) / 2)) =
      ((1 - (p + q) / 2) * dl + κ * ((p + q) / 2) * ds) / (1 - (p + q) / 2 + κ * ((p + q) / 2)) := by
    rw [eq_div_iff hw, add_mul, div_mul_cancel₀ _ hw]
    ring
  have hA : (l2 * (1 - q + κ * q) - l1 * (1 - p + κ * p)) * (1 - (p + q) / 2 + κ * ((p + q) / 2)) +
      (1 - κ) * ((l1 * (1 - p + κ * p) + l2 * (1 - q + κ * q)) / 2) * (q - p) =
      (1 - p + κ * p) * (1 - q + κ * q) * (l2 - l1) := by ring
  rw [hD]
  generalize (1 - (p + q) / 2) * dl + κ * ((p + q) / 2) * ds = N
  generalize 1 - (p + q) / 2 + κ * ((p + q) / 2) = w at hw hA
  generalize 1 / h = e
  have : e * (N * ((1 - p + κ * p) * (1 - q + κ * q)) / w ^ 2) * (l2 - l1) =
      e * (N / w ^ 2 * ((1 - p + κ * p) * (1 - q + κ * q) * (l2 - l1))) := by ring
  rw [this, ← hA]
  generalize l2 * (1 - q + κ * q) = u
  generalize l1 * (1 - p + κ * p) = v
  field_simp

/-- **C125**, Beckermann form with linear interpolation, one ghost width and a uniform partition coefficient `κ`: in all
three directions the flux is driven by the difference of the liquid composition `L` alone, with the same coefficient. -/
theorem c125_beckermann_linear_partial (b : Box3) (dl ds dx dy dz κ : ℝ) (hκ : 0 < κ) (phi c k : CellArr)
    (hg : c.g = k.g) (hu : Unit3 (cell b phi)) (hk : ∀ i j l, cell b k i j l = κ) (L : Field3)
    (hc : ∀ i j l, cell b c i j l = L i j l * (1 - cell b phi i j l + κ * cell b phi i j l)) (i j l : ℤ) :
    beckFluxX 'l' 'a' b dl ds dx phi c k i j l =
      some (drive dl ds dx κ (cell b phi (i - 1) j l) (cell b phi i j l) * (L i j l - L (i - 1) j l)) ∧
    beckFluxY 'l' 'a' b dl ds dy phi c k i j l =
      some (drive dl ds dy κ (cell b phi i (j - 1) l) (cell b phi i j l) * (L i j l - L i (j - 1) l)) ∧
    beckFluxZ 'l' 'a' b dl ds dz phi c k i j l =
      some (drive dl ds dz κ (cell b phi i j (l - 1)) (cell b phi i j l) * (L i j l - L i j (l - 1))) := by
  refine ⟨?_, ?_, ?_⟩
  · rw [beckFluxX_eq _ _ _ _ _ _ _ _ _ hg]
    simp only [X3, hk, hc]
    exact faceFlux_linear _ _ _ _ hκ _ _ _ _ (hu _ _ _).1 (hu _ _ _).2 (hu _ _ _).1 (hu _ _ _).2
  · rw [beckFluxY_eq _ _ _ _ _ _ _ _ _ hg]
    simp only [X3, Y3, hk, hc]
    exact faceFlux_linear _ _ _ _ hκ _ _ _ _ (hu _ _ _).1 (hu _ _ _).2 (hu _ _ _).1 (hu _ _ _).2
  · rw [beckFluxZ_eq _ _ _ _ _ _ _ _ _ hg]
    simp only [X3, Z3, hk, hc]
    exact faceFlux_linear _ _ _ _ hκ _ _ _ _ (hu _ _ _).1 (hu _ _ _).2 (hu _ _ _).1 (hu _ _ _).2

theorem drive_pos (dl ds h κ p q : ℝ) (hl : 0 < dl) (hs : 0 < ds) (hh : 0 < h) (hκ : 0 < κ) (p0 : 0 ≤ p) (p1 : p ≤ 1)
    (q0 : 0 ≤ q) (q1 : q ≤ 1) : 0 < drive dl ds h κ p q := by
  have mix : ∀ a u v : ℝ, 0 < u → 0 < v → 0 ≤ a → a ≤ 1 → 0 < (1 - a) * u + a * v := by
    intro a u v hu hv h0 h1
    rcases h0.eq_or_lt with g | g
    · rw [← g]; linarith
    · nlinarith [mul_pos g hv, mul_nonneg (sub_nonneg.mpr h1) hu.le]
  have h1 := mix ((p + q) / 2) dl (κ * ds) hl (mul_pos hκ hs) (by linarith) (by linarith)
  have h1' : 0 < (1 - (p + q) / 2) * dl + κ * ((p + q) / 2) * ds := by linarith
  have h2 := mix p 1 κ one_pos hκ p0 p1
  have h3 := mix q 1 κ one_pos hκ q0 q1
  have h4 := mix ((p + q) / 2) 1 κ one_pos hκ (by linarith) (by linarith)
  have h2' : 0 < 1 - p + κ * p := by linarith
  have h3' : 0 < 1 - q + κ * q := by linarith
  have h4' : 0 < 1 - (p + q) / 2 + κ * ((p + q) / 2) := by linarith
  unfold drive
  positivity

/-- **C125**: hence solute moves in each direction towards the lower liquid composition, and rests exactly where it does
not change: `+div flux` is the rate. -/
theorem c125_beckermann_zero_iff (b : Box3) (dl ds h κ : ℝ) (hκ : 0 < κ) (hl : 0 < dl) (hs : 0 < ds) (hh : 0 < h)
    (phi c k : CellArr) (hg : c.g = k.g) (hu : Unit3 (cell b phi)) (hk : ∀ i j l, cell b k i j l = κ) (L : Field3)
    (hc : ∀ i j l, cell b c i j l = L i j l * (1 - cell b phi i j l + κ * cell b phi i j l)) (i j l : ℤ) :
    (beckFluxX 'l' 'a' b dl ds h phi c k i j l = some 0 ↔ L i j l = L (i - 1) j l) ∧
    (beckFluxY 'l' 'a' b dl ds h phi c k i j l = some 0 ↔ L i j l = L i (j - 1) l) ∧
    (beckFluxZ 'l' 'a' b dl ds h phi c k i j l = some 0 ↔ L i j l = L i j (l - 1)) := by
  obtain ⟨hx, hy, hz⟩ := c125_beckermann_linear_partial b dl ds h h h κ hκ phi c k hg hu hk L hc i j l
  have fin : ∀ p q x y : ℝ, 0 ≤ p → p ≤ 1 → 0 ≤ q → q ≤ 1 →
      (some (drive dl ds h κ p q * (x - y)) = some 0 ↔ x = y) := by
    intro p q x y p0 p1 q0 q1
    rw [Option.some.injEq, mul_eq_zero, or_iff_right (drive_pos dl ds h κ p q hl hs hh hκ p0 p1 q0 q1).ne', sub_eq_zero]
  rw [hx, hy, hz]
  exact ⟨fin _ _ _ _ (hu _ _ _).1 (hu _ _ _).2 (hu _ _ _).1 (hu _ _ _).2,
    fin _ _ _ _ (hu _ _ _).1 (hu _ _ _).2 (hu _ _ _).1 (hu _ _ _).2,
    fin _ _ _ _ (hu _ _ _).1 (hu _ _ _).2 (hu _ _ _).1 (hu _ _ _).2⟩

/-! ## Laying the sample along another axis -/

/-- The second sample is the first one with axes x and z exchanged. -/
def IsXZ (u u' : Field3) : Prop := ∀ i j l, u' i j l = u l j i
/-- The second sample is the first one with axes y and z exchanged. -/
def IsYZ (u u' : Field3) : Prop := ∀ i j l, u' i j l = u i l j

/-- **C125**: exchanging y and z exchanges the fluxes, whatever the fields and the kinds; the x flux stays. -/
theorem c125_beckermann_exchange_yz (it at_ : Char) (b b' : Box3) (dl ds h : ℝ) (phi c k phi' c' k' : CellArr)
    (hg : c.g = k.g) (hg' : c'.g = k'.g) (hp : IsYZ (cell b phi) (cell b' phi')) (hc : IsYZ (cell b c) (cell b' c'))
    (hk : IsYZ (cell b k) (cell b' k')) (i j l : ℤ) :
    beckFluxX it at_ b' dl ds h phi' c' k' i j l = beckFluxX it at_ b dl ds h phi c k i l j ∧
    beckFluxY it at_ b' dl ds h phi' c' k' i j l = beckFluxZ it at_ b dl ds h phi c k i l j ∧
    beckFluxZ it at_ b' dl ds h phi' c' k' i j l = beckFluxY it at_ b dl ds h phi c k i l j := by
  refine ⟨?_, ?_, ?_⟩
  · rw [beckFluxX_eq _ _ _ _ _ _ _ _ _ hg, beckFluxX_eq _ _ _ _ _ _ _ _ _ hg']
    simp only [X3, hp _ _ _, hc _ _ _, hk _ _ _]
  · rw [beckFluxZ_eq _ _ _ _ _ _ _ _ _ hg, beckFluxY_eq _ _ _ _ _ _ _ _ _ hg']
    simp only [X3, Y3, Z3, hp _ _ _, hc _ _ _, hk _ _ _]
  · rw [beckFluxY_eq _ _ _ _ _ _ _ _ _ hg, beckFluxZ_eq _ _ _ _ _ _ _ _ _ hg']
    simp only [X3, Y3, Z3, hp _ _ _, hc _ _ _, hk _ _ _]

/-- The flux as a function of the average partition coefficient `q` determines `q`, where phase and composition are
such that the coupling matters. -/
theorem faceFlux_inj (it : Char) (dl ds h kd : ℝ) (phi c k k' : Pair) (v hv d : ℝ) (hav : avgP 'a' phi = some v)
    (hh : interpFunc it v = some hv) (h0 : 0 ≤ hv) (h1 : hv ≤ 1) (hd : beckermann it 'a' dl ds kd phi = some d)
    (hd0 : d ≠ 0) (hh0 : h ≠ 0) (hphi : phi.1 ≠ phi.2) (hc : c.1 + c.2 ≠ 0) (hk : 0 < k.1 + k.2) (hk' : 0 < k'.1 + k'.2) :
    faceFlux it 'a' dl ds h kd phi c k = faceFlux it 'a' dl ds h kd phi c k' ↔ k.1 + k.2 = k'.1 + k'.2 := by
  simp only [faceFlux, hd, hav, hh, Option.bind_eq_bind, Option.bind_some]
  simp only [avgP, avg_a, Option.bind_some, Option.some.injEq]
  have w : ∀ t : ℝ, 0 < t → 0 < 1 - hv + t * hv := by
    intro t ht
    rcases h1.lt_or_eq with g | g
    · nlinarith [mul_nonneg ht.le h0]
    · rw [g]; linarith
  have w1 := (w ((k.1 + k.2) / 2) (by linarith)).ne'
  have w2 := (w ((k'.1 + k'.2) / 2) (by linarith)).ne'
  have hne : phi.2 - phi.1 ≠ 0 := sub_ne_zero.mpr (Ne.symm hphi)
  rw [mul_right_inj' (one_div_ne_zero hh0), add_right_inj, mul_left_inj' hne, div_eq_div_iff w1 w2]
  constructor
  · intro e
    have : d * (c.1 + c.2) * ((k.1 + k.2) - (k'.1 + k'.2)) = 0 := by linear_combination (-4) * e
    rcases mul_eq_zero.mp this with g | g
    · exact absurd g (mul_ne_zero hd0 hc)
    · linarith
  · intro e; rw [e]

/-- **C125 is violated** for exchange of x and z (and, by the exchange of y and z, of x and y) when the partition
coefficient varies: a z side takes the partition coefficient of the cell to its left in place of the cell below.  On
every side where phase and composition make the coupling matter the flux of the turned sample is the flux of the sample
exactly if these two cells have the same partition coefficient. -/
theorem c125_violation_beckermann_exchange (it : Char) (b b' : Box3) (dl ds h : ℝ) (phi c k phi' c' k' : CellArr)
    (hg : c.g = k.g) (hg' : c'.g = k'.g) (hp : IsXZ (cell b phi) (cell b' phi')) (hc : IsXZ (cell b c) (cell b' c'))
    (hk : IsXZ (cell b k) (cell b' k')) (hpos : ∀ i j l, 0 < cell b k i j l) (i j l : ℤ) (v hv d : ℝ)
    (hav : avgP 'a' (X3 (cell b phi) i j l) = some v) (hh : interpFunc it v = some hv) (h0 : 0 ≤ hv) (h1 : hv ≤ 1)
    (hd : beckermann it 'a' dl ds (cell b k i j l) (X3 (cell b phi) i j l) = some d) (hd0 : d ≠ 0) (hh0 : h ≠ 0)
    (hphi : cell b phi (i - 1) j l ≠ cell b phi i j l) (hcc : cell b c (i - 1) j l + cell b c i j l ≠ 0) :
    beckFluxZ it 'a' b' dl ds h phi' c' k' l j i = beckFluxX it 'a' b dl ds h phi c k i j l ↔
      cell b k i j (l - 1) = cell b k (i - 1) j l := by
  rw [beckFluxZ_eq _ _ _ _ _ _ _ _ _ hg', beckFluxX_eq _ _ _ _ _ _ _ _ _ hg]
  have e1 : Z3 (cell b' phi') l j i = X3 (cell b phi) i j l := by simp only [Z3, X3, hp _ _ _]
  have e2 : Z3 (cell b' c') l j i = X3 (cell b c) i j l := by simp only [Z3, X3, hc _ _ _]
  have e3 : X3 (cell b' k') l j i = (cell b k i j (l - 1), cell b k i j l) := by simp only [X3, hk _ _ _]
  rw [e1, e2, e3, hk]
  rw [faceFlux_inj it dl ds h _ _ _ _ _ v hv d hav hh h0 h1 hd hd0 hh0 hphi hcc (add_pos (hpos _ _ _) (hpos _ _ _))
    (add_pos (hpos _ _ _) (hpos _ _ _))]
  simp only [X3, add_left_inj]

/-- **C125**: with a uniform partition coefficient all exchanges hold. -/
theorem c125_beckermann_exchange_xz_partial (it at_ : Char) (b b' : Box3) (dl ds h κ : ℝ) (phi c k phi' c' k' : CellArr)
    (hg : c.g = k.g) (hg' : c'.g = k'.g) (hp : IsXZ (cell b phi) (cell b' phi')) (hc : IsXZ (cell b c) (cell b' c'))
    (hk : ∀ i j l, cell b k i j l = κ) (hk' : ∀ i j l, cell b' k' i j l = κ) (i j l : ℤ) :
    beckFluxZ it at_ b' dl ds h phi' c' k' i j l = beckFluxX it at_ b dl ds h phi c k l j i ∧
    beckFluxY it at_ b' dl ds h phi' c' k' i j l = beckFluxY it at_ b dl ds h phi c k l j i ∧
    beckFluxX it at_ b' dl ds h phi' c' k' i j l = beckFluxZ it at_ b dl ds h phi c k l j i := by
  refine ⟨?_, ?_, ?_⟩
  · rw [beckFluxX_eq _ _ _ _ _ _ _ _ _ hg, beckFluxZ_eq _ _ _ _ _ _ _ _ _ hg']
    simp only [X3, Z3, hp _ _ _, hc _ _ _, hk, hk']
  · rw [beckFluxY_eq _ _ _ _ _ _ _ _ _ hg, beckFluxY_eq _ _ _ _ _ _ _ _ _ hg']
    simp only [X3, Y3, hp _ _ _, hc _ _ _, hk, hk']
  · rw [beckFluxZ_eq _ _ _ _ _ _ _ _ _ hg, beckFluxX_eq _ _ _ _ _ _ _ _ _ hg']
    simp only [X3, Z3, hp _ _ _, hc _ _ _, hk, hk']

/-! ## Stacks of equal layers -/

/-- All layers of the 3D sample are the 2D sample. -/
def Layers (u : Field2) (u3 : Field3) : Prop := ∀ i j l, u3 i j l = u i j

/-- **C125**: a stack of equal layers has the fluxes of the 2D sample in every layer, errors included, and nothing passes
from one layer to the next. -/
theorem c125_beckermann_layers (it at_ : Char) (b : Box) (b3 : Box3) (dl ds h : ℝ) (phi c k phi3 c3 k3 : CellArr)
    (hg : c.g = k.g) (hg3 : c3.g = k3.g) (hp : Layers (phi.cell b) (cell b3 phi3)) (hc : Layers (c.cell b) (cell b3 c3))
    (hk : Layers (k.cell b) (cell b3 k3)) (i j l : ℤ) :
    beckFluxX it at_ b3 dl ds h phi3 c3 k3 i j l = AMPE.Coupling.beckFluxX it at_ b dl ds h phi c k i j ∧
    beckFluxY it at_ b3 dl ds h phi3 c3 k3 i j l = AMPE.Coupling.beckFluxY it at_ b dl ds h phi c k i j ∧
    (∀ v, beckFluxZ it at_ b3 dl ds h phi3 c3 k3 i j l = some v → v = 0) := by
  refine ⟨?_, ?_, ?_⟩
  · rw [beckFluxX_eq _ _ _ _ _ _ _ _ _ hg3]
    simp only [AMPE.Coupling.beckFluxX, beckermannX, beckCouplX_eq _ _ _ _ _ _ _ hg, beckCoef, avgP_swap, faceFlux,
      concentrationFluxX, Option.bind_eq_bind, Option.bind_assoc, Option.bind_some, X3, X, hp _ _ _, hc _ _ _, hk _ _ _]
  · rw [beckFluxY_eq _ _ _ _ _ _ _ _ _ hg3]
    simp only [AMPE.Coupling.beckFluxY, beckermannY, beckCouplY_eq _ _ _ _ _ _ _ hg, beckCoef, avgP_swap, faceFlux,
      concentrationFluxY, Option.bind_eq_bind, Option.bind_assoc, Option.bind_some, X3, Y3, X, Y, hp _ _ _, hc _ _ _,
      hk _ _ _]
  · intro v hv
    rw [beckFluxZ_eq _ _ _ _ _ _ _ _ _ hg3] at hv
    simp only [faceFlux, Option.bind_eq_bind, Option.bind_eq_some_iff, Z3, hp _ _ _, hc _ _ _] at hv
    obtain ⟨_, -, _, -, _, -, _, -, _, -, e⟩ := hv
    rw [← Option.some.inj e]
    ring

/-! ## KKS form -/

/-- Flux of a face from the cells it shares. -/
noncomputable def kksFace (it at_ : Char) (R : ℝ) (m s : Arrhenius) (h : ℝ) (temp phi cl ca c : Pair) : Option ℝ := do
  let d0 ← kksDiff it at_ R m s phi temp
  let cp ← kksCoef it at_ d0 phi cl ca
  some (concFlux h d0 cp c phi)

theorem kksCoef_swap (it at_ : Char) (d : ℝ) (phi cl ca : Pair) :
    kksCoef it at_ d phi.swap cl.swap ca.swap = kksCoef it at_ d phi cl ca := by
  simp only [kksCoef, avgP_swap, Prod.fst_swap, Prod.snd_swap, add_comm cl.2, add_comm ca.2]

/-- **C125**, KKS form: with the same ghost width for both phase compositions the flux through a side is one function of
the two cells that share it, the same for the three directions. -/
theorem c125_kks_two_cells (it at_ : Char) (b : Box3) (R : ℝ) (m s : Arrhenius) (h : ℝ) (temp : Field3)
    (phi cl ca c : CellArr) (hg : ca.g = cl.g) (i j l : ℤ) :
    kksFluxX it at_ b R m s h temp phi cl ca c i j l = kksFace it at_ R m s h (X3 temp i j l) (X3 (cell b phi) i j l)
      (X3 (cell b cl) i j l) (X3 (cell b ca) i j l) (X3 (cell b c) i j l) ∧
    kksFluxY it at_ b R m s h temp phi cl ca c i j l = kksFace it at_ R m s h (Y3 temp i j l) (Y3 (cell b phi) i j l)
      (Y3 (cell b cl) i j l) (Y3 (cell b ca) i j l) (Y3 (cell b c) i j l) ∧
    kksFluxZ it at_ b R m s h temp phi cl ca c i j l = kksFace it at_ R m s h (Z3 temp i j l) (Z3 (cell b phi) i j l)
      (Z3 (cell b cl) i j l) (Z3 (cell b ca) i j l) (Z3 (cell b c) i j l) := by
  refine ⟨?_, ?_, ?_⟩
  · have e : ∀ d0, kksCouplX it at_ b d0 phi cl ca i j l = kksCoef it at_ d0 (X3 (cell b phi) i j l)
        (X3 (cell b cl) i j l) (X3 (cell b ca) i j l) := by
      intro d0
      rw [← kksCoef_swap]
      simp only [kksCouplX, X3, cell, Prod.swap, addr_x, hg]
    simp only [kksFluxX, e, kksFace]
  · have e : ∀ d0, kksCouplY it at_ b d0 phi cl ca i j l = kksCoef it at_ d0 (Y3 (cell b phi) i j l)
        (Y3 (cell b cl) i j l) (Y3 (cell b ca) i j l) := by
      intro d0
      rw [← kksCoef_swap]
      simp only [kksCouplY, Y3, cell, Prod.swap, addr_y, hg]
    simp only [kksFluxY, e, kksFace]
  · have e : ∀ d0, kksCouplZ it at_ b d0 phi cl ca i j l = kksCoef it at_ d0 (Z3 (cell b phi) i j l)
        (Z3 (cell b cl) i j l) (Z3 (cell b ca) i j l) := by
      intro d0
      rw [← kksCoef_swap]
      simp only [kksCouplZ, Z3, cell, Prod.swap, addr_z, hg]
    simp only [kksFluxZ, e, kksFace]

/-- **C125**, KKS form: the liquid composition is read in the two cells of the side in the three directions whatever the ghost
widths; a solid composition stored with another ghost width only matters through what it contains. -/
theorem c125_kks_liquid_cells (it at_ : Char) (b : Box3) (d : ℝ) (phi cl : CellArr) (g : ℤ) (x : ℝ) (i j l : ℤ) :
    kksCouplX it at_ b d phi cl ⟨fun _ => x, g⟩ i j l =
      kksCoef it at_ d (X3 (cell b phi) i j l) (X3 (cell b cl) i j l) (x, x) ∧
    kksCouplY it at_ b d phi cl ⟨fun _ => x, g⟩ i j l =
      kksCoef it at_ d (Y3 (cell b phi) i j l) (Y3 (cell b cl) i j l) (x, x) ∧
    kksCouplZ it at_ b d phi cl ⟨fun _ => x, g⟩ i j l =
      kksCoef it at_ d (Z3 (cell b phi) i j l) (Z3 (cell b cl) i j l) (x, x) := by
  refine ⟨?_, ?_, ?_⟩
  · rw [← kksCoef_swap]
    simp only [kksCouplX, X3, cell, Prod.swap, addr_x]
  · rw [← kksCoef_swap]
    simp only [kksCouplY, Y3, cell, Prod.swap, addr_y]
  · rw [← kksCoef_swap]
    simp only [kksCouplZ, Z3, cell, Prod.swap, addr_z]

/-- Every cell is a mixture: fraction `phi` of composition `ca`, the rest of composition `cl` (linear interpolation). -/
def Mixture3 (phi cl ca c : Field3) : Prop :=
  ∀ i j l, c i j l = (1 - phi i j l) * cl i j l + phi i j l * ca i j l

theorem kksFace_linear (at_ : Char) (hat : at_ = 'a' ∨ at_ = 'h') (R : ℝ) (m s : Arrhenius) (h : ℝ)
    (temp phi cl ca : Pair) (hu : Unit2 phi) :
    ∃ w, 0 ≤ w ∧ w ≤ 1 ∧ kksFace 'l' at_ R m s h temp phi cl ca
        ((1 - phi.1) * cl.1 + phi.1 * ca.1, (1 - phi.2) * cl.2 + phi.2 * ca.2) =
      some (1 / h * ((1 - w) * rate R m temp + w * rate R s temp) *
        ((1 - (phi.1 + phi.2) / 2) * (cl.2 - cl.1) + (phi.1 + phi.2) / 2 * (ca.2 - ca.1))) := by
  obtain ⟨v, w, hv, hh, h0, h1⟩ := face_weight 'l' at_ (by simp [proper]) hat phi hu
  refine ⟨w, h0, h1, ?_⟩
  simp only [kksFace, kksDiff, twoPhase, kksCoef, hv, hh, deriv_l, Option.bind_eq_bind, Option.bind_some, concFlux,
    Option.some.injEq]
  ring

/-- **C125**, KKS form with linear interpolation: in all three directions the flux is a mixture of the coefficients of
liquid and solid times the phase-weighted differences of the phase compositions. -/
theorem c125_kks_linear (at_ : Char) (hat : at_ = 'a' ∨ at_ = 'h') (b : Box3) (R : ℝ) (m s : Arrhenius) (h : ℝ)
    (temp : Field3) (phi cl ca c : CellArr) (hg : ca.g = cl.g) (hu : Unit3 (cell b phi))
    (hm : Mixture3 (cell b phi) (cell b cl) (cell b ca) (cell b c)) (i j l : ℤ) :
    let flow := fun (w : ℝ) (t p x y : Pair) => 1 / h * ((1 - w) * rate R m t + w * rate R s t) *
      ((1 - (p.1 + p.2) / 2) * (x.2 - x.1) + (p.1 + p.2) / 2 * (y.2 - y.1))
    (∃ w, 0 ≤ w ∧ w ≤ 1 ∧ kksFluxX 'l' at_ b R m s h temp phi cl ca c i j l = some (flow w (X3 temp i j l)
      (X3 (cell b phi) i j l) (X3 (cell b cl) i j l) (X3 (cell b ca) i j l))) ∧
    (∃ w, 0 ≤ w ∧ w ≤ 1 ∧ kksFluxY 'l' at_ b R m s h temp phi cl ca c i j l = some (flow w (Y3 temp i j l)
      (Y3 (cell b phi) i j l) (Y3 (cell b cl) i j l) (Y3 (cell b ca) i j l))) ∧
    (∃ w, 0 ≤ w ∧ w ≤ 1 ∧ kksFluxZ 'l' at_ b R m s h temp phi cl ca c i j l = some (flow w (Z3 temp i j l)
      (Z3 (cell b phi) i j l) (Z3 (cell b cl) i j l) (Z3 (cell b ca) i j l))) := by
  intro flow
  obtain ⟨hx, hy, hz⟩ := c125_kks_two_cells 'l' at_ b R m s h temp phi cl ca c hg i j l
  refine ⟨?_, ?_, ?_⟩
  · obtain ⟨w, w0, w1, e⟩ := kksFace_linear at_ hat R m s h (X3 temp i j l) (X3 (cell b phi) i j l)
      (X3 (cell b cl) i j l) (X3 (cell b ca) i j l) ⟨hu _ _ _, hu _ _ _⟩
    refine ⟨w, w0, w1, ?_⟩
    rw [hx, ← e]
    simp only [X3, hm _ _ _]
  · obtain ⟨w, w0, w1, e⟩ := kksFace_linear at_ hat R m s h (Y3 temp i j l) (Y3 (cell b phi) i j l)
      (Y3 (cell b cl) i j l) (Y3 (cell b ca) i j l) ⟨hu _ _ _, hu _ _ _⟩
    refine ⟨w, w0, w1, ?_⟩
    rw [hy, ← e]
    simp only [Y3, hm _ _ _]
  · obtain ⟨w, w0, w1, e⟩ := kksFace_linear at_ hat R m s h (Z3 temp i j l) (Z3 (cell b phi) i j l)
      (Z3 (cell b cl) i j l) (Z3 (cell b ca) i j l) ⟨hu _ _ _, hu _ _ _⟩
    refine ⟨w, w0, w1, ?_⟩
    rw [hz, ← e]
    simp only [Z3, hm _ _ _]

/-! ## Example -/

/-- Patch of 4 cells by 4, one ghost cell, an interface across z. -/
def box : Box3 := ⟨0, 0, 0, 4, 4⟩
noncomputable def phiArr : CellArr := ⟨fun n => if n < 36 then 1 / 4 else 3 / 4, 1⟩
noncomputable def concArr : CellArr := ⟨fun n => 3 * (1 - phiArr.mem n + 1 / 4 * phiArr.mem n), 1⟩
noncomputable def kArr : CellArr := ⟨fun _ => 1 / 4, 1⟩

theorem phiArr_unit : Unit3 (cell box phiArr) := by
  intro i j l
  by_cases h : addr box 1 i j l < 36 <;> simp only [cell, phiArr, h, if_true, if_false] <;> norm_num

/-- Uniform liquid, an interface between two layers: nothing moves. -/
example : cell box phiArr 0 0 (-1) = 1 / 4 ∧ cell box phiArr 0 0 0 = 3 / 4 ∧
    beckFluxZ 'l' 'a' box 1 1 1 phiArr concArr kArr 0 0 0 = some 0 := by
  refine ⟨by norm_num [cell, phiArr, addr, row, plane, box], by norm_num [cell, phiArr, addr, row, plane, box], ?_⟩
  exact ((c125_beckermann_zero_iff box 1 1 1 (1 / 4) (by norm_num) one_pos one_pos one_pos phiArr concArr kArr rfl
    phiArr_unit (fun _ _ _ => rfl) (fun _ _ _ => 3) (fun _ _ _ => rfl) 0 0 0).2.2).mpr rfl

/-- The two cells compared by `c125_violation_beckermann_exchange` may differ. -/
example : ∃ k : CellArr, (∀ i j l, 0 < cell box k i j l) ∧ cell box k 1 1 0 ≠ cell box k 0 1 1 := by
  refine ⟨⟨fun n => if n = addr box 1 1 1 0 then 1 / 2 else 1 / 4, 1⟩, ?_, ?_⟩
  · intro i j l
    by_cases h : addr box 1 i j l = addr box 1 1 1 0 <;> simp only [cell, h, if_true, if_false] <;> norm_num
  · have : addr box 1 0 1 1 ≠ addr box 1 1 1 0 := by norm_num [addr, row, plane, box]
    simp only [cell, this, if_true, if_false]
    norm_num

/-- **C125** The cells of the ghost box are numbered from zero at its lower corner, along x, then y, then z, without gaps. -/
theorem c125_cell_addresses (b : Box3) (g i j l : ℤ) :
    addr b g (b.lo0 - g) (b.lo1 - g) (b.lo2 - g) = 0 ∧ addr b g (i + 1) j l = addr b g i j l + 1 ∧
      addr b g (b.lo0 - g) (j + 1) l = addr b g (b.lo0 + b.n0 - 1 + g) j l + 1 ∧
      addr b g (b.lo0 - g) (b.lo1 - g) (l + 1) = addr b g (b.lo0 + b.n0 - 1 + g) (b.lo1 + b.n1 - 1 + g) l + 1 := by
  simp only [addr, row, plane]
  refine ⟨by ring, by ring, by ring, by ring⟩

end AMPE.Coupling3.Props
