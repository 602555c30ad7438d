import Verif.Model.InputEcho
import Mathlib.Tactic.Linarith
import Mathlib.Tactic.Ring
import Mathlib.Tactic.NormNum
import Mathlib.Tactic.FieldSimp
import Mathlib.Tactic.Positivity

/-! # C26: conversion of input databases -/

namespace AMPE.InputEcho.Props

open AMPE.InputEcho

/-! ## Specification: what is stored under a path -/

/-- Value of a key. -/
def find : DB → String → Option Val
  | .nil, _ => none
  | .cons k v r, key => if k = key then some v else find r key

/-- Value under a path of keys. -/
def at' : DB → List String → Option Val
  | _, [] => none
  | d, [k] => find d k
  | d, k :: ks => match find d k with
    | some (.db d') => at' d' ks
    | _ => none

/-- Node under a path of keys. -/
def nodeAt : Forest → List String → Option Tree
  | _, [] => none
  | f, [k] => f.find k
  | f, k :: ks => match f.find k with
    | some (.node _ c) => nodeAt c ks
    | none => none

def keys : DB → List String
  | .nil => []
  | .cons k _ r => k :: keys r

mutual
/-- Keys are distinct in every (sub)database, as SAMRAI guarantees. -/
def WF : DB → Prop
  | .nil => True
  | .cons k v r => k ∉ keys r ∧ WFV v ∧ WF r
def WFV : Val → Prop
  | .leaf _ => True
  | .db d => WF d
end

/-- A scalar becomes a node with its text, an array a node with one unnamed child per element. -/
def shown (l : List Atom) : Tree :=
  match l with
  | [a] => .node a .nil
  | l => .node .empty (arrayNodes l)

/-- What the tree holds for an array: `none` for the types that are dropped. -/
noncomputable def image (l : Leaf) : Option Tree :=
  match l with
  | .char l => some (shown (l.map .char))
  | .int l => some (shown (l.map .int))
  | .dbl l => some (shown (l.map fun x => .real (sig10 x)))
  | .flt l => some (shown (l.map .real))
  | .str l => some (shown (l.map .str))
  | _ => none

/-! ## Trees -/

theorem find_push (f : Forest) (k k' : String) (t : Tree) (h : f.find k = none) :
    (f.push k t).find k' = if k' = k then some t else f.find k' := by
  match f with
  | .nil =>
    unfold Forest.push Forest.find
    by_cases hk : k = k'
    · rw [if_pos hk, if_pos hk.symm]
    · rw [if_neg hk, if_neg (Ne.symm hk)]; unfold Forest.find; rfl
  | .cons a s r =>
    unfold Forest.find at h
    split at h
    · simp at h
    · next hne =>
      have ih := find_push r k k' t h
      unfold Forest.push
      rw [Forest.find, Forest.find, ih]
      by_cases hk : k' = k
      · subst hk; rw [if_neg hne]; simp
      · rw [if_neg hk, if_neg hk]

theorem put_eq_push (f : Forest) (k : String) (a : Atom) (h : f.find k = none) : f.put k a = f.push k (.node a .nil) := by
  match f with
  | .nil => rfl
  | .cons k' (.node b c) r =>
    unfold Forest.find at h
    split at h
    · simp at h
    · next hne =>
      unfold Forest.put Forest.push
      rw [if_neg hne, put_eq_push r k a h]

theorem storeArray_eq (f : Forest) (k : String) (l : List Atom) (h : f.find k = none) :
    storeArray f k l = f.push k (shown l) := by
  match l with
  | [] => rfl
  | [a] => exact put_eq_push f k a h
  | a :: b :: l => rfl

theorem storeLeaf_find (f : Forest) (k k' : String) (l : Leaf) (h : f.find k = none) :
    (storeLeaf f k l).find k' = if k' = k then image l else f.find k' := by
  unfold storeLeaf image
  cases l
  all_goals simp only
  case bool => split <;> simp_all
  case complex => split <;> simp_all
  case box => split <;> simp_all
  all_goals rw [storeArray_eq f k _ h, find_push f k k' _ h]

/-- The tree for a database value. -/
noncomputable def imageV : Val → Option Tree
  | .leaf l => image l
  | .db d => some (.node .empty (copyTree d .nil))

theorem copyVal_find (f : Forest) (k k' : String) (v : Val) (h : f.find k = none) :
    (copyVal k v f).find k' = if k' = k then imageV v else f.find k' := by
  cases v with
  | leaf l => unfold copyVal imageV; exact storeLeaf_find f k k' l h
  | db d => unfold copyVal imageV; exact find_push f k k' _ h

theorem find_none_iff (d : DB) (k : String) : find d k = none ↔ k ∉ keys d := by
  match d with
  | .nil => simp [find, keys]
  | .cons k' v r =>
    unfold find keys
    by_cases h : k' = k
    · simp [h]
    · rw [if_neg h, find_none_iff r k]; simp [Ne.symm h]

theorem copyTree_find (d : DB) (f : Forest) (k : String) (hd : WF d) (hf : ∀ x ∈ keys d, f.find x = none) :
    (copyTree d f).find k = match find d k with
      | some v => imageV v
      | none => f.find k := by
  match d with
  | .nil => unfold copyTree find; rfl
  | .cons a v r =>
    unfold WF at hd
    obtain ⟨h1, _, h3⟩ := hd
    have ha : f.find a = none := hf a (by unfold keys; simp)
    unfold copyTree
    rw [copyTree_find r (copyVal a v f) k h3 ?_, copyVal_find f a k v ha]
    · rw [find]
      by_cases hk : a = k
      · subst hk
        rw [if_pos rfl, if_pos rfl, (find_none_iff r a).2 h1]
      · rw [if_neg hk, if_neg (Ne.symm hk)]
    · intro x hx
      rw [copyVal_find f a x v ha, if_neg]
      · exact hf x (by unfold keys; simp [hx])
      · rintro rfl; exact h1 hx

theorem wf_find (d : DB) (k : String) (v : Val) (hd : WF d) (h : find d k = some v) : WFV v := by
  match d with
  | .nil => simp [find] at h
  | .cons a w r =>
    unfold WF at hd
    unfold find at h
    split at h
    · exact Option.some.inj h ▸ hd.2.1
    · exact wf_find r k v hd.2.2 h

/-! ## C26 -/

/-- **C26**: at every nesting depth, what the tree holds under a path is the image of what the database holds there, and
paths absent from the database are absent from the tree (paths of keys, the unnamed children of arrays excluded). -/
theorem c26_paths_partial (d : DB) (hd : WF d) (ks : List String) (k : String) (hk : ∀ x ∈ ks, x ≠ "")
    (hk' : k ≠ "") :
    (∀ v, at' d (ks ++ [k]) = some v → nodeAt (copyTree d .nil) (ks ++ [k]) = imageV v) ∧
    (at' d (ks ++ [k]) = none → nodeAt (copyTree d .nil) (ks ++ [k]) = none) := by
  have arr : ∀ (l : List Atom) (k : String), k ≠ "" → (arrayNodes l).find k = none := by
    intro l
    induction l with
    | nil => intro _ _; rfl
    | cons a l ih =>
      intro k hk
      unfold arrayNodes Forest.find
      rw [if_neg (Ne.symm hk)]
      exact ih k hk
  have leafNode : ∀ (l : Leaf) (t : Atom) (c : Forest), image l = some (.node t c) → ∀ k, k ≠ "" → c.find k = none := by
    intro l t c h k hk
    have sh : ∀ m : List Atom, shown m = .node t c → c.find k = none := by
      intro m hm
      match m with
      | [] => unfold shown at hm; injection hm with _ h2; rw [← h2]; rfl
      | [a] => unfold shown at hm; injection hm with _ h2; rw [← h2]; rfl
      | a :: b :: m => unfold shown at hm; injection hm with _ h2; rw [← h2]; exact arr _ k hk
    unfold image at h
    cases l <;> simp only [Option.some.injEq, reduceCtorEq] at h <;> exact sh _ h
  have nodeNone : ∀ (c : Forest) (ks : List String) (k : String), (∀ x ∈ ks, x ≠ "") → k ≠ "" →
      (∀ k, k ≠ "" → c.find k = none) → nodeAt c (ks ++ [k]) = none := by
    intro c ks k h1 h2 h3
    match ks with
    | [] => exact h3 k h2
    | a :: [] => simp [nodeAt, h3 a (h1 a (by simp))]
    | a :: b :: ks => simp [nodeAt, h3 a (h1 a (by simp))]
  induction ks generalizing d with
  | nil =>
    have h := copyTree_find d .nil k hd fun _ _ => rfl
    constructor
    · intro v hv
      simp only [List.nil_append, at'] at hv
      simp only [List.nil_append, nodeAt]
      rw [h, hv]
    · intro hv
      simp only [List.nil_append, at'] at hv
      simp only [List.nil_append, nodeAt]
      rw [h, hv]
      rfl
  | cons a ks ih =>
    have h := copyTree_find d .nil a hd fun _ _ => rfl
    have e1 : at' d (a :: ks ++ [k]) = match find d a with
        | some (.db d') => at' d' (ks ++ [k])
        | _ => none := by
      cases ks <;> simp [at']
    have e2 : nodeAt (copyTree d .nil) (a :: ks ++ [k]) = match (copyTree d .nil).find a with
        | some (.node _ c) => nodeAt c (ks ++ [k])
        | none => none := by
      cases ks <;> simp [nodeAt]
    rw [e1, e2, h]
    have hks : ∀ x ∈ ks, x ≠ "" := fun x hx => hk x (by simp [hx])
    cases hf : find d a with
    | none => exact ⟨fun v hv => by simp at hv, fun _ => rfl⟩
    | some w =>
      cases w with
      | leaf l =>
        simp only [imageV]
        refine ⟨fun v hv => by simp at hv, fun _ => ?_⟩
        cases hi : image l with
        | none => rfl
        | some t =>
          cases t with
          | node t c => exact nodeNone c ks k hks hk' (leafNode l t c hi)
      | db d' =>
        simp only [imageV]
        exact ih d' (wf_find d a _ hd hf) hks

/-- **C26** for characters, integers, floats and strings: value and order of every element are kept. -/
theorem c26_kept (d : DB) (hd : WF d) (ks : List String) (k : String) (hk : ∀ x ∈ ks, x ≠ "") (hk' : k ≠ "") :
    (∀ l, at' d (ks ++ [k]) = some (.leaf (.char l)) → nodeAt (copyTree d .nil) (ks ++ [k]) = some (shown (l.map .char))) ∧
    (∀ l, at' d (ks ++ [k]) = some (.leaf (.int l)) → nodeAt (copyTree d .nil) (ks ++ [k]) = some (shown (l.map .int))) ∧
    (∀ l, at' d (ks ++ [k]) = some (.leaf (.flt l)) → nodeAt (copyTree d .nil) (ks ++ [k]) = some (shown (l.map .real))) ∧
    (∀ l, at' d (ks ++ [k]) = some (.leaf (.str l)) → nodeAt (copyTree d .nil) (ks ++ [k]) = some (shown (l.map .str))) :=
  have h := (c26_paths_partial d hd ks k hk hk').1
  ⟨fun _ h' => h _ h', fun _ h' => h _ h', fun _ h' => h _ h', fun _ h' => h _ h'⟩

/-- **C26** is violated by booleans (and complex numbers and boxes): they never reach the tree, at any depth. -/
theorem c26_violation_dropped (d : DB) (hd : WF d) (ks : List String) (k : String) (hk : ∀ x ∈ ks, x ≠ "")
    (hk' : k ≠ "") (l : Leaf)
    (hl : (∃ b, l = .bool b) ∨ (∃ c, l = .complex c) ∨ ∃ b, l = .box b) (h : at' d (ks ++ [k]) = some (.leaf l)) :
    nodeAt (copyTree d .nil) (ks ++ [k]) = none := by
  rw [(c26_paths_partial d hd ks k hk hk').1 _ h]
  rcases hl with ⟨b, rfl⟩ | ⟨b, rfl⟩ | ⟨b, rfl⟩ <;> rfl

/-- The tree does not tell apart two databases that differ only in a boolean. -/
theorem c26_violation_boolean (k : String) (b b' : List Bool) (r : DB) (f : Forest) :
    copyTree (.cons k (.leaf (.bool b)) r) f = copyTree (.cons k (.leaf (.bool b')) r) f := by
  unfold copyTree copyVal storeLeaf
  rfl

/-! ## Precision of doubles -/

theorem sig10_zero : sig10 0 = 0 := by unfold sig10; simp

theorem pow_split (e : ℤ) : (10 : ℝ) ^ (e + 1) = 10 ^ 10 * (10 : ℝ) ^ (e - 9) := by
  rw [show e + 1 = 10 + (e - 9) by ring, zpow_add₀ (by norm_num)]
  norm_cast

theorem log_bounds (x : ℝ) (hx : x ≠ 0) :
    10 ^ 9 * (10 : ℝ) ^ (Int.log 10 |x| - 9) ≤ |x| ∧ |x| < 10 ^ 10 * (10 : ℝ) ^ (Int.log 10 |x| - 9) := by
  have h0 : 0 < |x| := abs_pos.2 hx
  have h1 := Int.zpow_log_le_self (R := ℝ) (b := 10) (by norm_num) h0
  have h2 := Int.lt_zpow_succ_log_self (R := ℝ) (b := 10) (by norm_num) |x|
  push_cast at h1 h2
  constructor
  · refine le_trans (le_of_eq ?_) h1
    rw [show Int.log 10 |x| = 9 + (Int.log 10 |x| - 9) by ring, zpow_add₀ (by norm_num)]
    norm_num
  · rw [← pow_split]; exact h2

/-- **C26**: a double is changed by at most half a unit in its tenth significant digit. -/
theorem c26_double_error (x : ℝ) : |sig10 x - x| ≤ |x| / (2 * 10 ^ 9) := by
  by_cases hx : x = 0
  · subst hx; rw [sig10_zero]; simp
  · have hb := (log_bounds x hx).1
    unfold sig10
    set p : ℝ := (10 : ℝ) ^ (Int.log 10 |x| - 9) with hp
    have hp0 : 0 < p := by rw [hp]; exact zpow_pos (by norm_num) _
    have h1 : |x / p - round (x / p)| ≤ 1 / 2 := abs_sub_round _
    have h2 : (round (x / p) : ℝ) * p - x = -((x / p - round (x / p)) * p) := by field_simp; ring
    rw [h2, abs_neg, abs_mul, abs_of_pos hp0]
    have h3 : |x / p - round (x / p)| * p ≤ 1 / 2 * p := mul_le_mul_of_nonneg_right h1 hp0.le
    have h4 : p ≤ |x| / 10 ^ 9 := by rw [le_div_iff₀ (by positivity)]; linarith
    calc _ ≤ 1 / 2 * p := h3
      _ ≤ 1 / 2 * (|x| / 10 ^ 9) := by linarith
      _ = |x| / (2 * 10 ^ 9) := by ring

/-- A number with at most ten significant decimal digits. -/
def TenDigits (x : ℝ) : Prop := ∃ n k : ℤ, |n| < 10 ^ 10 ∧ x = n * (10 : ℝ) ^ k

/-- **C26** is violated by doubles with more digits: a double survives exactly when it has at most ten significant
decimal digits. -/
theorem c26_violation_double (x : ℝ) : sig10 x = x ↔ TenDigits x := by
  constructor
  · intro h
    by_cases hx : x = 0
    · exact ⟨0, 0, by norm_num, by simp [hx]⟩
    have hb := (log_bounds x hx).2
    set e := Int.log 10 |x| - 9 with he
    have hp0 : (0 : ℝ) < (10 : ℝ) ^ e := zpow_pos (by norm_num) _
    have hxe : x = round (x / (10 : ℝ) ^ e) * (10 : ℝ) ^ e := by
      conv_lhs => rw [← h]
      unfold sig10
      rw [← he]
    refine ⟨round (x / (10 : ℝ) ^ e), e, ?_, hxe⟩
    have : |(round (x / (10 : ℝ) ^ e) : ℝ)| * (10 : ℝ) ^ e < 10 ^ 10 * (10 : ℝ) ^ e := by
      rw [← abs_of_pos hp0, ← abs_mul, abs_of_pos hp0, ← hxe]
      exact hb
    have := lt_of_mul_lt_mul_right this hp0.le
    exact_mod_cast this
  · rintro ⟨n, k, hn, hx⟩
    by_cases hx0 : x = 0
    · rw [hx0, sig10_zero]
    have hb := (log_bounds x hx0).1
    have hn0 : n ≠ 0 := by rintro rfl; exact hx0 (by rw [hx]; simp)
    set e := Int.log 10 |x| - 9 with he
    -- the exponent of the tenth digit is not above `k`
    have hek : e ≤ k := by
      by_contra hlt
      have h1 : (10 : ℝ) ^ (k + 1) ≤ (10 : ℝ) ^ e := zpow_le_zpow_right₀ (by norm_num) (by omega)
      have h2 : |x| < 10 ^ 10 * (10 : ℝ) ^ k := by
        rw [hx, abs_mul, abs_of_pos (show (0 : ℝ) < (10 : ℝ) ^ k from zpow_pos (by norm_num) _)]
        apply mul_lt_mul_of_pos_right _ (zpow_pos (by norm_num) _)
        exact_mod_cast hn
      have h3 : (10 : ℝ) ^ (k + 1) = 10 * (10 : ℝ) ^ k := by rw [zpow_add₀ (by norm_num)]; ring
      have h4 : 10 ^ 9 * (10 : ℝ) ^ (k + 1) ≤ 10 ^ 9 * (10 : ℝ) ^ e := mul_le_mul_of_nonneg_left h1 (by positivity)
      rw [h3] at h4
      linarith
    have hq : x / (10 : ℝ) ^ e = ((n * 10 ^ (k - e).toNat : ℤ) : ℝ) := by
      have : (10 : ℝ) ^ k = (10 : ℝ) ^ (k - e).toNat * (10 : ℝ) ^ e := by
        rw [← zpow_natCast, ← zpow_add₀ (by norm_num)]
        congr 1
        omega
      rw [hx, this]
      push_cast
      rw [div_eq_iff (zpow_pos (by norm_num : (0 : ℝ) < 10) _).ne']
      ring
    unfold sig10
    rw [← he, hq, round_intCast, ← hq, div_mul_cancel₀ _ (zpow_pos (by norm_num : (0 : ℝ) < 10) _).ne']

example : TenDigits 0.25 ∧ ¬ TenDigits (1 + 1 / 2 ^ 52) := by
  refine ⟨⟨25, -2, by norm_num, by norm_num⟩, ?_⟩
  rw [← c26_violation_double]
  intro h
  have hl : Int.log 10 |(1 + 1 / 2 ^ 52 : ℝ)| = 0 := by
    rw [abs_of_pos (by norm_num)]
    apply le_antisymm
    · have := (Int.lt_zpow_iff_log_lt (R := ℝ) (b := 10) (by norm_num) (x := 1) (r := 1 + 1 / 2 ^ 52) (by norm_num)).1
        (by norm_num)
      omega
    · exact (Int.zpow_le_iff_le_log (R := ℝ) (b := 10) (by norm_num) (x := 0) (r := 1 + 1 / 2 ^ 52) (by norm_num)).1
        (by norm_num)
  unfold sig10 at h
  rw [hl] at h
  have hr : round ((1 + 1 / 2 ^ 52 : ℝ) / (10 : ℝ) ^ ((0 : ℤ) - 9)) = 10 ^ 9 := by
    rw [round_eq, Int.floor_eq_iff]
    constructor <;> norm_num
  rw [hr] at h
  norm_num at h

/-! ## Database to database -/

/-- Value after dropping complex numbers and boxes at every depth. -/
def kept : Val → Option Val
  | .db d => some (.db (copyDB d))
  | .leaf (.complex _) => none
  | .leaf (.box _) => none
  | .leaf l => some (.leaf l)

/-- **C26**: the database-to-database copy keeps every key whose value is a boolean, character, integer, double, float,
string or database; complex numbers and boxes are dropped. -/
theorem c26_copy_db (d : DB) (hd : WF d) (k : String) : find (copyDB d) k = (find d k).bind kept := by
  match d with
  | .nil => rfl
  | .cons a v r =>
    unfold WF at hd
    have ih := c26_copy_db r hd.2.2 k
    have hn : a = k → find (copyDB r) k = none := by
      rintro rfl
      rw [ih, (find_none_iff r a).2 hd.1]
      rfl
    have hc : find (copyEntry a v (copyDB r)) k = if a = k then kept v else find (copyDB r) k := by
      cases v with
      | db d' => unfold copyEntry kept; rw [find]
      | leaf l =>
        cases l
        case complex => unfold copyEntry kept; split <;> simp_all
        case box => unfold copyEntry kept; split <;> simp_all
        all_goals unfold copyEntry kept; rw [find]
    unfold copyDB
    rw [hc, find]
    by_cases hk : a = k
    · rw [if_pos hk, if_pos hk]; rfl
    · rw [if_neg hk, if_neg hk, ih]

example : WF (.cons "a" (.leaf (.bool [true])) (.cons "b" (.db (.cons "a" (.leaf (.dbl [0.5, 2])) .nil)) .nil)) := by
  simp [WF, WFV, keys]

end AMPE.InputEcho.Props
