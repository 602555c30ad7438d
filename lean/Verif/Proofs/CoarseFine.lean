import Verif.Model.CoarseFine
import Verif.Props.Smoother
import Mathlib.Tactic.Linarith
import Mathlib.Tactic.Ring
import Mathlib.Tactic.FieldSimp

namespace AMPE.CoarseFine

open AMPE.Smoother.Props (nodup_flat)

theorem sweep_off {K A : Type} [DecidableEq K] (L : List A) (key : A → K) (val : A → ℝ → ℝ) (f : K → ℝ) (k : K)
    (h : ∀ a ∈ L, key a ≠ k) : sweep L key val f k = f k := by
  unfold sweep
  induction L generalizing f with
  | nil => rfl
  | cons a L ih =>
    rw [List.foldl_cons, ih _ (fun b hb => h b (by simp [hb])), Function.update_of_ne]
    exact (h a (by simp)).symm

theorem sweep_at {K A : Type} [DecidableEq K] (L : List A) (key : A → K) (val : A → ℝ → ℝ) (f : K → ℝ) (hL : L.Nodup)
    (hk : ∀ a ∈ L, ∀ b ∈ L, key a = key b → a = b) (a : A) (ha : a ∈ L) :
    sweep L key val f (key a) = val a (f (key a)) := by
  induction L generalizing f with
  | nil => simp at ha
  | cons b L ih =>
    rw [List.nodup_cons] at hL
    have e : sweep (b :: L) key val f = sweep L key val (Function.update f (key b) (val b (f (key b)))) := rfl
    rw [e]
    by_cases hab : a = b
    · subst hab
      rw [sweep_off, Function.update_self]
      intro c hc hca
      exact hL.1 (hk c (by simp [hc]) a (by simp) hca ▸ hc)
    · have ha' : a ∈ L := by
        rcases List.mem_cons.mp ha with h | h
        · exact absurd h hab
        · exact h
      rw [ih _ hL.2 (fun x hx y hy => hk x (by simp [hx]) y (by simp [hy])) ha', Function.update_of_ne]
      intro h
      exact hab (hk a ha b (by simp) h)

theorem mem_strided (b e r j : ℤ) (hr : 1 ≤ r) : j ∈ strided b e r ↔ b ≤ j ∧ j ≤ e ∧ r ∣ j - b := by
  unfold strided
  simp only [List.mem_map, List.mem_range]
  constructor
  · rintro ⟨k, hk, rfl⟩
    have h1 : ((k : ℤ) + 1) ≤ (e - b + r) / r := by omega
    rw [Int.le_ediv_iff_mul_le (by omega)] at h1
    have h2 : (0 : ℤ) ≤ k * r := by positivity
    refine ⟨by linarith, by linarith, ⟨k, by ring⟩⟩
  · rintro ⟨h1, h2, ⟨c, hc⟩⟩
    have hc0 : 0 ≤ c := by
      by_contra h
      have : c ≤ -1 := by omega
      nlinarith
    refine ⟨c.toNat, ?_, ?_⟩
    · have h3 : c + 1 ≤ (e - b + r) / r := by
        rw [Int.le_ediv_iff_mul_le (by omega)]
        nlinarith
      omega
    · rw [Int.toNat_of_nonneg hc0]; linarith

theorem nodup_strided (b e r : ℤ) (hr : 1 ≤ r) : (strided b e r).Nodup := by
  refine List.Nodup.map_on ?_ List.nodup_range
  intro x _ y _ h
  have h1 : (x : ℤ) * r = y * r := by linarith
  have h2 : (x : ℤ) = y := mul_right_cancel₀ (by omega) h1
  exact_mod_cast h2

theorem mem_offsets (r p : ℤ) : p ∈ offsets r ↔ 0 ≤ p ∧ p < r := by
  unfold offsets
  simp only [List.mem_map, List.mem_range]
  constructor
  · rintro ⟨k, hk, rfl⟩; omega
  · rintro ⟨h1, h2⟩; exact ⟨p.toNat, by omega, by omega⟩

theorem nodup_offsets (r : ℤ) : (offsets r).Nodup :=
  List.Nodup.map_on (fun x _ y _ h => by exact_mod_cast h) List.nodup_range

theorem mem_rows (b e r : ℤ) (hr : 1 ≤ r) (a : ℤ × ℤ) :
    a ∈ rows b e r ↔ (b ≤ a.1 ∧ a.1 ≤ e ∧ r ∣ a.1 - b) ∧ 0 ≤ a.2 ∧ a.2 < r := by
  unfold rows
  rw [List.mem_flatMap]
  constructor
  · rintro ⟨j, hj, h⟩
    obtain ⟨p, hp, rfl⟩ := List.mem_map.mp h
    exact ⟨(mem_strided b e r j hr).mp hj, (mem_offsets r p).mp hp⟩
  · rintro ⟨h1, h2⟩
    exact ⟨a.1, (mem_strided b e r _ hr).mpr h1, List.mem_map.mpr ⟨a.2, (mem_offsets r _).mpr h2, rfl⟩⟩

theorem nodup_rows (b e r : ℤ) (hr : 1 ≤ r) : (rows b e r).Nodup := by
  refine nodup_flat _ _ Prod.fst (nodup_strided b e r hr) (fun j _ => ?_) (fun j _ x hx => ?_)
  · exact List.Nodup.map_on (fun x _ y _ h => (Prod.mk.inj h).2) (nodup_offsets r)
  · obtain ⟨p, -, rfl⟩ := List.mem_map.mp hx; rfl

theorem mem_quads (b1 e1 r1 b2 e2 r2 : ℤ) (a : (ℤ × ℤ) × (ℤ × ℤ)) :
    a ∈ quads b1 e1 r1 b2 e2 r2 ↔ a.1 ∈ rows b1 e1 r1 ∧ a.2 ∈ rows b2 e2 r2 := by
  obtain ⟨⟨k, kp⟩, ⟨j, jp⟩⟩ := a
  unfold quads rows
  simp only [List.mem_flatMap, List.mem_map, Prod.mk.injEq]
  constructor
  · rintro ⟨k', hk, j', hj, kp', hkp, jp', hjp, ⟨rfl, rfl⟩, ⟨rfl, rfl⟩⟩
    exact ⟨⟨_, hk, _, hkp, rfl, rfl⟩, ⟨_, hj, _, hjp, rfl, rfl⟩⟩
  · rintro ⟨⟨k', hk, kp', hkp, rfl, rfl⟩, ⟨j', hj, jp', hjp, rfl, rfl⟩⟩
    exact ⟨_, hk, _, hj, _, hkp, _, hjp, ⟨rfl, rfl⟩, ⟨rfl, rfl⟩⟩

theorem nodup_quads (b1 e1 r1 b2 e2 r2 : ℤ) (h1 : 1 ≤ r1) (h2 : 1 ≤ r2) : (quads b1 e1 r1 b2 e2 r2).Nodup := by
  refine nodup_flat _ _ (fun x => x.1.1) (nodup_strided _ _ _ h1) (fun k _ => ?_) (fun k _ x hx => ?_)
  · refine nodup_flat _ _ (fun x => x.2.1) (nodup_strided _ _ _ h2) (fun j _ => ?_) (fun j _ x hx => ?_)
    · refine nodup_flat _ _ (fun x => x.1.2) (nodup_offsets _) (fun kp _ => ?_) (fun kp _ x hx => ?_)
      · exact List.Nodup.map_on (fun x _ y _ h => by simpa using h) (nodup_offsets _)
      · obtain ⟨p, -, rfl⟩ := List.mem_map.mp hx; rfl
    · obtain ⟨kp, -, hx⟩ := List.mem_flatMap.mp hx
      obtain ⟨p, -, rfl⟩ := List.mem_map.mp hx; rfl
  · obtain ⟨j, -, hx⟩ := List.mem_flatMap.mp hx
    obtain ⟨kp, -, hx⟩ := List.mem_flatMap.mp hx
    obtain ⟨p, -, rfl⟩ := List.mem_map.mp hx; rfl

/-- The place of index `j`: first cell of its coarse cell and offset. -/
def place (r j : ℤ) : ℤ × ℤ := (j - j % r, j % r)

theorem place_mem (b e r j : ℤ) (hr : 1 ≤ r) (hb : r ∣ b) (h1 : b ≤ j) (h2 : j ≤ e) : place r j ∈ rows b e r := by
  rw [mem_rows _ _ _ hr]
  obtain ⟨c, rfl⟩ := hb
  have h3 := Int.emod_nonneg j (show r ≠ 0 by omega)
  have h4 := Int.emod_lt_of_pos j (show 0 < r by omega)
  have h5 := Int.emod_add_mul_ediv j r
  refine ⟨⟨?_, ?_, ?_⟩, h3, h4⟩
  · show r * c ≤ j - j % r
    have : j - j % r = r * (j / r) := by linarith
    rw [this]
    have : c ≤ j / r := (Int.le_ediv_iff_mul_le (by omega)).mpr (by linarith)
    nlinarith
  · show j - j % r ≤ e
    linarith
  · show r ∣ j - j % r - r * c
    exact ⟨j / r - c, by rw [mul_sub]; linarith⟩

theorem place_eq (b e r : ℤ) (hr : 1 ≤ r) (hb : r ∣ b) (a : ℤ × ℤ) (ha : a ∈ rows b e r) : a = place r (a.1 + a.2) := by
  rw [mem_rows _ _ _ hr] at ha
  obtain ⟨⟨-, -, hd⟩, h1, h2⟩ := ha
  have hd' : r ∣ a.1 := by
    have := dvd_add hd hb
    simpa using this
  have : (a.1 + a.2) % r = a.2 := by
    obtain ⟨c, hc⟩ := hd'
    rw [hc, add_comm, Int.add_mul_emod_self_left, Int.emod_eq_of_lt h1 h2]
  unfold place
  rw [this]
  ext <;> simp

theorem row_range (b e r : ℤ) (hr : 1 ≤ r) (hb : r ∣ b) (he : r ∣ e + 1) (a : ℤ × ℤ) (ha : a ∈ rows b e r) :
    b ≤ a.1 + a.2 ∧ a.1 + a.2 ≤ e := by
  rw [mem_rows _ _ _ hr] at ha
  obtain ⟨⟨h3, h4, hd⟩, h1, h2⟩ := ha
  refine ⟨by omega, ?_⟩
  have hd' : r ∣ e + 1 - a.1 := by
    have := dvd_sub he (by simpa using dvd_add hd hb : r ∣ a.1)
    exact this
  obtain ⟨c, hc⟩ := hd'
  have : 1 ≤ c := by
    by_contra h
    have : c ≤ 0 := by omega
    nlinarith
  nlinarith

/-- Effect of the two nested loops when the range consists of whole coarse cells. -/
theorem sweep_rows {K : Type} [DecidableEq K] (b e r : ℤ) (hr : 1 ≤ r) (hb : r ∣ b) (he : r ∣ e + 1) (mk : ℤ → K)
    (hmk : Function.Injective mk) (val : ℤ × ℤ → ℝ → ℝ) (f : K → ℝ) :
    (∀ j, b ≤ j → j ≤ e → sweep (rows b e r) (fun a => mk (a.1 + a.2)) val f (mk j) = val (place r j) (f (mk j))) ∧
    (∀ k, (∀ j, b ≤ j → j ≤ e → k ≠ mk j) → sweep (rows b e r) (fun a => mk (a.1 + a.2)) val f k = f k) := by
  constructor
  · intro j h1 h2
    have hp := place_mem b e r j hr hb h1 h2
    have hs : (place r j).1 + (place r j).2 = j := by unfold place; simp
    have := sweep_at (rows b e r) (fun a => mk (a.1 + a.2)) val f (nodup_rows b e r hr)
      (fun a ha c hc h => by rw [place_eq b e r hr hb a ha, place_eq b e r hr hb c hc, hmk h]) _ hp
    beta_reduce at this
    rwa [hs] at this
  · intro k hk
    refine sweep_off _ _ _ _ _ fun a ha h => ?_
    obtain ⟨h1, h2⟩ := row_range b e r hr hb he a ha
    exact hk _ h1 h2 h.symm

/-- Same for four nested loops. -/
theorem sweep_quads {K : Type} [DecidableEq K] (b1 e1 r1 b2 e2 r2 : ℤ) (h1 : 1 ≤ r1) (h2 : 1 ≤ r2) (hb1 : r1 ∣ b1)
    (he1 : r1 ∣ e1 + 1) (hb2 : r2 ∣ b2) (he2 : r2 ∣ e2 + 1) (mk : ℤ → ℤ → K)
    (hmk : ∀ i j i' j', mk i j = mk i' j' → i = i' ∧ j = j') (val : (ℤ × ℤ) × (ℤ × ℤ) → ℝ → ℝ) (f : K → ℝ) :
    (∀ i j, b1 ≤ i → i ≤ e1 → b2 ≤ j → j ≤ e2 →
      sweep (quads b1 e1 r1 b2 e2 r2) (fun a => mk (a.1.1 + a.1.2) (a.2.1 + a.2.2)) val f (mk i j) =
        val (place r1 i, place r2 j) (f (mk i j))) ∧
    (∀ k, (∀ i j, b1 ≤ i → i ≤ e1 → b2 ≤ j → j ≤ e2 → k ≠ mk i j) →
      sweep (quads b1 e1 r1 b2 e2 r2) (fun a => mk (a.1.1 + a.1.2) (a.2.1 + a.2.2)) val f k = f k) := by
  constructor
  · intro i j hi1 hi2 hj1 hj2
    have hp : (place r1 i, place r2 j) ∈ quads b1 e1 r1 b2 e2 r2 :=
      (mem_quads _ _ _ _ _ _ _).mpr ⟨place_mem b1 e1 r1 i h1 hb1 hi1 hi2, place_mem b2 e2 r2 j h2 hb2 hj1 hj2⟩
    have s1 : (place r1 i).1 + (place r1 i).2 = i := by unfold place; simp
    have s2 : (place r2 j).1 + (place r2 j).2 = j := by unfold place; simp
    have := sweep_at (quads b1 e1 r1 b2 e2 r2) (fun a => mk (a.1.1 + a.1.2) (a.2.1 + a.2.2)) val f
      (nodup_quads b1 e1 r1 b2 e2 r2 h1 h2)
      (fun a ha c hc h => by
        rw [mem_quads] at ha hc
        obtain ⟨g1, g2⟩ := hmk _ _ _ _ h
        have q1 : a.1 = c.1 := by rw [place_eq b1 e1 r1 h1 hb1 _ ha.1, place_eq b1 e1 r1 h1 hb1 _ hc.1, g1]
        have q2 : a.2 = c.2 := by rw [place_eq b2 e2 r2 h2 hb2 _ ha.2, place_eq b2 e2 r2 h2 hb2 _ hc.2, g2]
        exact Prod.ext q1 q2) _ hp
    beta_reduce at this
    rwa [s1, s2] at this
  · intro k hk
    refine sweep_off _ _ _ _ _ fun a ha h => ?_
    rw [mem_quads] at ha
    obtain ⟨p1, p2⟩ := row_range b1 e1 r1 h1 hb1 he1 _ ha.1
    obtain ⟨q1, q2⟩ := row_range b2 e2 r2 h2 hb2 he2 _ ha.2
    exact hk _ _ p1 p2 q1 q2 h.symm

end AMPE.CoarseFine
