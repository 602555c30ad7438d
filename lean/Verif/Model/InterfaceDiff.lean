import Verif.Model.DiffCoeff

/-!
# Which interface constant acts on which pair of grains (source/TbasedCompositionDiffusionStrategy.cc)

`setDiffusionInterfaces` calls `ab_diffusion_of_temperature` for pairs of phases (0 liquid, 1 solid A, 2 solid B) with a
pointer to the first order parameter of each phase.  A pointer into the array of order parameters is modelled by the
index of the component it points to; the components that follow are the ones that follow in the array.  The asserts
`norderp[i] > 0` are not modelled (they are compiled out with `NDEBUG`; `count` zero gives an empty loop).
-/

namespace AMPE.InterfaceDiff

open AMPE.Flux AMPE.DiffCoeff

/-- Members set by the constructor, source/TbasedCompositionDiffusionStrategy.cc:20-54; the numbers of order parameters are
those given by source/CompositionDiffusionStrategyFactory.h:53-60. -/
structure Strategy where
  norderp : ℕ
  nA : ℕ
  nB : ℕ
  with3 : Bool
  withB : Bool
  LA : Arrhenius
  LB : Arrhenius
  AA : Arrhenius
  AB : Arrhenius
  BB : Arrhenius

/-- Component that `phi_data[i]` points to, source/TbasedCompositionDiffusionStrategy.cc:135-148. -/
def first (s : Strategy) : Fin 3 → ℕ
  | 0 => if s.with3 then 0 else s.norderp - 1
  | 1 => if s.with3 then 1 else 0
  | 2 => if s.with3 then 2 else s.nA

/-- `norderp = {1, d_norderpA, d_norderpB}`, source/TbasedCompositionDiffusionStrategy.cc:155. -/
def count (s : Strategy) : Fin 3 → ℕ
  | 0 => 1
  | 1 => s.nA
  | 2 => s.nB

/-- `d0[i][j]`, `q0[i][j]` for `j ≤ i`, source/TbasedCompositionDiffusionStrategy.cc:156-172. -/
def constant (s : Strategy) : Fin 3 → Fin 3 → Arrhenius
  | 1, 0 => s.LA
  | 1, 1 => s.AA
  | 2, 0 => s.LB
  | 2, 1 => s.AB
  | 2, 2 => s.BB
  | _, _ => ⟨0, 0⟩

/-- `for i < nphases, for j <= i`, source/TbasedCompositionDiffusionStrategy.cc:130, 175-176. -/
def phasePairsOf (s : Strategy) : List (Fin 3 × Fin 3) :=
  [(0, 0), (1, 0), (1, 1)] ++ if s.withB then [(2, 0), (2, 1), (2, 2)] else []

/-- Coefficients of the three phases on the faces of one direction. -/
abbrev Coeffs := Fin 3 → ℤ × ℤ → ℝ

/-- One call, source/TbasedCompositionDiffusionStrategy.cc:177-208, x faces: the arrays of phases `i` and `j` are both
given, and `diffB` is written if the phases differ only (source/fortran/2d/concentrationdiffusion.m4:944-958). -/
noncomputable def callX (s : Strategy) (p : Patch) (R : ℝ) (temp : Field2) (phi : ℕ → Field2) (ij : Fin 3 × Fin 3)
    (diff : Coeffs) : Coeffs :=
  if 0 < (constant s ij.1 ij.2).d0 then
    let add := abTX p (count s ij.1) (count s ij.2) (decide (ij.1 = ij.2)) R (constant s ij.1 ij.2).d0
      (constant s ij.1 ij.2).q0 temp (fun a => phi (first s ij.1 + a)) (fun b => phi (first s ij.2 + b))
    fun P => if P = ij.1 ∨ P = ij.2 then add (diff P) else diff P
  else diff

/-- Same for the y faces. -/
noncomputable def callY (s : Strategy) (p : Patch) (R : ℝ) (temp : Field2) (phi : ℕ → Field2) (ij : Fin 3 × Fin 3)
    (diff : Coeffs) : Coeffs :=
  if 0 < (constant s ij.1 ij.2).d0 then
    let add := abTY p (count s ij.1) (count s ij.2) (decide (ij.1 = ij.2)) R (constant s ij.1 ij.2).d0
      (constant s ij.1 ij.2).q0 temp (fun a => phi (first s ij.1 + a)) (fun b => phi (first s ij.2 + b))
    fun P => if P = ij.1 ∨ P = ij.2 then add (diff P) else diff P
  else diff

/-- `setDiffusionInterfaces`, source/TbasedCompositionDiffusionStrategy.cc:118-210, x faces. -/
noncomputable def interfacesX (s : Strategy) (p : Patch) (R : ℝ) (temp : Field2) (phi : ℕ → Field2) (diff : Coeffs) :
    Coeffs :=
  (phasePairsOf s).foldl (fun d ij => callX s p R temp phi ij d) diff

/-- Same for the y faces. -/
noncomputable def interfacesY (s : Strategy) (p : Patch) (R : ℝ) (temp : Field2) (phi : ℕ → Field2) (diff : Coeffs) :
    Coeffs :=
  (phasePairsOf s).foldl (fun d ij => callY s p R temp phi ij d) diff

end AMPE.InterfaceDiff
